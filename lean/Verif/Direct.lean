import Verif.Machine
import Verif.Unmarshal

/-!
`Unmarshal` as the Go code does it (`/repo/xml/read.go` 137-161, 325-629, 704-787): tokens are read from the decoder of
`Verif.Machine` one at a time, when they are needed, and the input of an element with an `,innerxml` field is kept in the
decoder's `saved` buffer.  `Verif.Unmarshal` describes the same with a list of all tokens of the input, each with its place.

Simplifications on types and values as in `Verif.Unmarshal`.  Loops and recursion have fuel; running out of it for every
fuel stands for a call that does not return.
-/
namespace Verif.Direct

open Verif.Xml Verif.Bind Verif.Machine

/-- Errors: of the decoder, with the line; of a value; and `fuel`. -/
inductive UErr where
  | dec (e : Machine.MErr)
  | val (e : RErr)
  | fuel
  deriving DecidableEq

/-- A piece of `unmarshal`: it asks for tokens, and uses the decoder's `saved` buffer. -/
inductive TProg (α : Type) where
  | ret (a : α)
  | fail (e : UErr)
  | token (k : Token → TProg α)
  | save (k : Int → TProg α)
  | offset (k : Int → TProg α)
  | cut (i j : Int) (k : Bytes → TProg α)

/-- One piece after another. -/
def TProg.bind {α β : Type} : TProg α → (α → TProg β) → TProg β
  | .ret a, f => f a
  | .fail e, _ => .fail e
  | .token k, f => .token fun t => (k t).bind f
  | .save k, f => .save fun i => (k i).bind f
  | .offset k, f => .offset fun i => (k i).bind f
  | .cut i j k, f => .cut i j fun b => (k b).bind f

/-- The beginning of saving (`/repo/xml/read.go` 524-529): `saveXMLIndex`, and the decoder. -/
def beginSave (m : M) : Int × M :=
  match m.d.saved with
  | none => (0, { m with d := { m.d with saved := some [] } })
  | some _ => (m.d.savedOffset, m)

/-- The end of saving (`/repo/xml/read.go` 572-575): `saveXMLData`, and the decoder. -/
def endSave (m : M) (i j : Int) : Bytes × M :=
  (((m.d.saved.getD []).take j.toNat).drop i.toNat, if i = 0 then { m with d := { m.d with saved := none } } else m)

/-- Running a piece of `unmarshal` on a decoder; every error of `Token` is returned. -/
def TProg.run {α : Type} (n : Nat) : TProg α → M → Except UErr α × M
  | .ret a, m => (.ok a, m)
  | .fail e, m => (.error e, m)
  | .token k, m =>
    match m.token n with
    | (.error e, m') => (.error (.dec e), m')
    | (.ok t, m') => (k t).run n m'
  | .save k, m => (k (beginSave m).1).run n (beginSave m).2
  | .offset k, m => (k m.d.savedOffset).run n m
  | .cut i j k, m => (k (endSave m i j).1).run n (endSave m i j).2

/-- `Skip` (`/repo/xml/read.go` 770-787). -/
def skipP : Nat → Nat → TProg Unit
  | 0, _ => .fail .fuel
  | K + 1, d => .token fun
    | .startElement _ _ => skipP K (d + 1)
    | .endElement _ =>
      match d with
      | 0 => .ret ()
      | d' + 1 => skipP K d'
    | _ => skipP K d

/-- `savedOffset = d.savedOffset()` if `saveXML` is valid (`/repo/xml/read.go` 539-542). -/
def offsetIf {α : Type} : Option Int → (Int → TProg α) → TProg α
  | none, k => k 0
  | some _, k => .offset k

/-- `saveXMLData` at the end element (`/repo/xml/read.go` 571-577). -/
def cutIf {α : Type} : Option Int → Int → (Bytes → TProg α) → TProg α
  | none, _, k => k []
  | some i, off, k => .cut i off k

/-- `saveXMLIndex` if there is an `,innerxml` field (`/repo/xml/read.go` 503-532). -/
def saveIf {α : Type} (infos : List FInfo) (k : Option Int → TProg α) : TProg α :=
  match modeField infos .innerxml with
  | none => k none
  | some _ => .save fun i => k (some i)

/-- A value computed without the decoder. -/
def lift {α β : Type} (r : Except RErr α) (k : α → TProg β) : TProg β :=
  match r with
  | .ok a => k a
  | .error e => .fail (.val e)

mutual
/-- `unmarshal` (`/repo/xml/read.go` 325-629) after the start element with the name `n` and the attributes `as`, at the
depth `d`. -/
def unmarshalP (io : FloatIO) (K : Nat) : Nat → Nat → Sch → Val → Name → List Attr → TProg Val
  | 0, _, _, _, _, _ => .fail .fuel
  | f + 1, d, s, v, n, as =>
    if maxDepth ≤ d then .fail (.val .depth)
    else
      match s with
      | .ptr s' => (unmarshalInP io K f d s' (v.deref s') n as).bind fun w => .ret (.ptr (some w))
      | s => unmarshalInP io K f d s v n as
/-- `unmarshal` from the switch on the kind of the value on (`/repo/xml/read.go` 397-629). -/
def unmarshalInP (io : FloatIO) (K : Nat) : Nat → Nat → Sch → Val → Name → List Attr → TProg Val
  | 0, _, _, _, _, _ => .fail .fuel
  | f + 1, d, s, v, n, as =>
    match s, v with
    | .slice s', .slice l => (unmarshalP io K f (d + 1) s' s'.zero n as).bind fun w => .ret (.slice (l ++ [w]))
    | .simple k, _ => (contentP io K f d [] [] none [] []).bind fun c => lift (copySimple io k c.2.1) .ret
    | .struct _ xn infos subs, .struct xv vs =>
      lift (checkName xn n) fun _ => lift (readAttrs io infos subs vs as) fun vs1 =>
        saveIf infos fun save => (contentP io K f d infos subs save vs1 []).bind fun c =>
          lift (finishStruct io infos subs c.1 c.2.1 c.2.2) fun vs2 => .ret (.struct (if xn.isSome then n else xv) vs2)
    | .bad e, _ => .fail (.val (.info e))
    | _, _ => .fail (.val .unknownType)
/-- The loop over the tokens of an element (`/repo/xml/read.go` 537-589) with `unmarshalPath` (704-763).  `save` is
`saveXMLIndex` if `saveXML` is valid; returned are the fields, the character data and `saveXMLData`. -/
def contentP (io : FloatIO) (K : Nat) : Nat → Nat → List FInfo → List Sch → Option Int → List Val → Bytes →
    TProg (List Val × Bytes × Bytes)
  | 0, _, _, _, _, _, _ => .fail .fuel
  | f + 1, d, infos, subs, save, vs, data => offsetIf save fun off => .token fun
    | .startElement n as =>
      match elemField infos n with
      | some i =>
        match subs[i]?, (initGroup infos subs vs i)[i]? with
        | some s, some v => (unmarshalP io K f (d + 1) s v n as).bind fun w =>
            contentP io K f d infos subs save ((initGroup infos subs vs i).set i w) data
        | _, _ => .fail (.val .unknownType)
      | none => (skipP K 0).bind fun _ => contentP io K f d infos subs save vs data
    | .endElement _ => cutIf save off fun inner => .ret (vs, data, inner)
    | .charData b => contentP io K f d infos subs save vs (data ++ b)
    | _ => contentP io K f d infos subs save vs data
end

/-- The search for the first start element (`/repo/xml/read.go` 329-341). -/
def findStartP : Nat → TProg (Name × List Attr)
  | 0 => .fail .fuel
  | K + 1 => .token fun
    | .startElement n as => .ret (n, as)
    | _ => findStartP K

/-- `Unmarshal` (`/repo/xml/read.go` 137-161) of an input into a pointer to a zero value of a struct type. -/
def docP (io : FloatIO) (F : Nat) (s : Sch) : TProg Val :=
  (findStartP F).bind fun st => unmarshalInP io F F 0 s s.zero st.1 st.2

/-- `Unmarshal`, with fuel `F`: the result and the decoder after it. -/
def decode (io : FloatIO) (F : Nat) (s : Sch) (doc : Bytes) : Except UErr Val × M := (docP io F s).run F (M.new doc)

end Verif.Direct

#!/usr/bin/env python3
"""Writes lean/Verif/MpdSchema.lean: the struct types of /repo/mpd as Lean data, in the order needed."""
import re, os
REPO = '/repo/mpd'
structs, named = {}, {}
for fn in sorted(os.listdir(REPO)):
    if not fn.endswith('.go') or fn.endswith('_test.go'):
        continue
    src = open(os.path.join(REPO, fn)).read()
    for m in re.finditer(r'^type (\w+) struct \{\n(.*?)^\}', src, re.M | re.S):
        line = src[:m.start()].count('\n') + 1
        fs = []
        body = m.group(2).split('\n')
        for k, l in enumerate(body):
            l = l.strip()
            if not l or l.startswith('//'):
                continue
            mm = re.match(r'^(\w+)\s+(\S+)(?:\s+`(.*?)`)?(\s*//.*)?$', l)
            if mm:
                fs.append((mm.group(1), mm.group(2), mm.group(3), line + k + 1, False))
                continue
            mm = re.match(r'^(\*?[\w.]+)(?:\s+`(.*?)`)?(\s*//.*)?$', l)
            if not mm:
                raise SystemExit('cannot read %s:%d: %s' % (fn, line + k + 1, l))
            fs.append((mm.group(1).lstrip('*'), mm.group(1), mm.group(2), line + k + 1, True))
        structs[m.group(1)] = (fn, line, line + len(body), fs)
    for m in re.finditer(r'^type (\w+) ([^\s{]+)$', src, re.M):
        if m.group(2) not in ('struct', 'interface'):
            named[m.group(1)] = m.group(2)
basic = {'string': '.simple .str', 'bool': '.simple .bool', 'xml.Name': '.name', 'xml.Attr': '.attr',
         'int': '.simple (.int 64)', 'Duration': '.simple .duration', 'FloatInf64': '.simple .floatInf'}
for b in (8, 16, 32, 64):
    basic['uint%d' % b] = '.simple (.uint %d)' % b
    basic['int%d' % b] = '.simple (.int %d)' % b
for b in (32, 64):
    basic['float%d' % b] = '.simple (.float %d)' % b
order = []
def xmltag(tag):
    if not tag:
        return ''
    m = re.search(r'xml:"([^"]*)"', tag)
    return m.group(1) if m else ''
def typ(t):
    if t.startswith('*'):
        return '.ptr (%s)' % typ(t[1:])
    if t.startswith('[]'):
        return '.slice (%s)' % typ(t[2:])
    if t in basic:
        return basic[t]
    if t in structs:
        need(t)
        return 't' + t
    return typ(named[t])
out = {}
def need(n):
    if n in out:
        return
    out[n] = None
    fn, l0, l1, fs = structs[n]
    rows = []
    for name, t, tag, ln, emb in fs:
        tg = xmltag(tag)
        if tg == '-' or (name[0].islower() and not emb):
            rows.append('fld b!"%s" b!"%s" %s .hidden' % (name, tg, 'false' if name[0].islower() else 'true'))
        elif emb:
            rows.append('emb b!"%s" b!"%s" (%s)' % (name, tg, typ(t)))
        else:
            rows.append('fld b!"%s" b!"%s" true (%s)' % (name, tg, typ(t)))
    out[n] = '/-- `%s` (`/repo/mpd/%s` %d-%d). -/\ndef t%s : Typ := mkStruct b!"%s" [\n  %s]\n' % (
        n, fn, l0, l1, n, n, ',\n  '.join(rows))
    order.append(n)
need('MPD')
h = '''import Verif.Schema

/-!
The struct types of the manifest (`/repo/mpd/mpd.go`, `/repo/mpd/scte35.go` and the other files of that package) reachable from `MPD`, written by
`tools/gen_schema.py` from the Go source: every field with its name, its `xml` tag and its type, in order.  Named types
without methods of their own for XML are replaced by what they are (`AnyURI` is a string).
-/
namespace Verif.Bind

/-- A named field with its tag and type. -/
def fld (name tag : Bytes) (exported : Bool) (t : Typ) : Decl × Typ := (⟨name, false, exported, tag⟩, t)
/-- An embedded field. -/
def emb (name tag : Bytes) (t : Typ) : Decl × Typ := (⟨name, true, true, tag⟩, t)
/-- A struct type. -/
def mkStruct (name : Bytes) (fs : List (Decl × Typ)) : Typ := .struct name (fs.map (·.1)) (fs.map (·.2))

'''.replace("(`/repo/mpd/mpd.go`, `/repo/mpd/scte35.go` and the other files of that package) reachable from `MPD`, written by\n`tools/gen_schema.py` from the Go source:",
"reachable from `MPD` (`/repo/mpd/mpd.go`, `/repo/mpd/scte35.go`), written by `tools/gen_schema.py` from the Go\nsource:")
p = os.path.join(os.path.dirname(os.path.abspath(__file__)), '../lean/Verif/MpdSchema.lean')
open(p, 'w').write(h + '\n'.join(out[n] for n in order) + '\nend Verif.Bind\n')
print(len(order), 'structs')

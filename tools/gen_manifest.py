#!/usr/bin/env python3
"""Writes /verif/MANIFEST.json and checks that every named theorem exists in the Lean sources."""
import json, os, re, glob
root=os.path.dirname(os.path.dirname(os.path.abspath(__file__)))
C={}
def c(pid,status,ths,note,ns):
    C[pid]=dict(property=pid,status=status,theorems=[ns+"."+t for t in ths],note=note)
D="Verif.Duration"
c("C01","partial",["C01_string_denotes_partial","C01_refuted","C01_exceptional_range","C01_iff"],
  "False of the code: magnitudes in [0.9995 s, 1 s) are rendered as PT0S (C01_refuted). Proved for all other int64 durations.",D)
c("C02","proved",["C02_string_total"],"At most 21 of the 32 bytes, for every int64.",D)
c("C03","proved",["C03_parse_value"],"Under the stated range (seconds field at most 2^51 ns, sum below 2^63-1 ns); float64 rounding is modelled exactly.",D)
c("C04","proved",["C04_accepts_iff","C04_documented_accepted","C04_alphabet","C04_no_fuel"],"Acceptance is exactly the grammar DurationSpec.Fields.Valid.",D)
c("C05","partial",["C05_refuted","C05_nonneg_partial","C05_sign_iff"],"False of the code: P106752D is accepted with a negative result. Proved when the denoted time fits. C05_sign_iff: with whole seconds (at most 9007199 in the seconds field) the result is the denoted time modulo 2^64 ns, so negative exactly in the upper half.",D)
c("C06","partial",["C06_cycle","C06_settles","C06_roundtrip_partial","C06_cycles_partial","C06_refuted","C06_max_wraps"],
  "False below 0.5 ms (15 ns reads back as 14 ns) and at the top of the range; proved from 0.5 ms up except [0.9995 s, 1 s). C06_cycle: for every int64 duration, what it becomes; C06_settles: repeated cycles come to rest.",D)
exec(open(os.path.join(root,"tools","manifest_more.py")).read()) if os.path.exists(os.path.join(root,"tools","manifest_more.py")) else None
names=set()
for f in glob.glob(root+"/lean/Verif/**/*.lean",recursive=True):
    ns=[]
    for l in open(f):
        m=re.match(r"namespace (Verif\S*)",l)
        if m: ns.append(m.group(1))
        m=re.match(r"end (\S+)",l)
        if m and ns and ns[-1]==m.group(1): ns.pop()
        m=re.match(r"(?:@\[[^\]]*\] )?(?:protected |private )?theorem (\S+)",l)
        if m: names.add(".".join(ns+[m.group(1)]))
for x in C.values():
    for t in x["theorems"]:
        if t not in names: print("MISSING",t)
props=[json.loads(l)["id"] for l in open(root+"/properties.jsonl")]
for p in props:
    if p not in C: print("no claim yet:",p)
json.dump({"claims":[C[k] for k in sorted(C)]},open(root+"/MANIFEST.json","w"),indent=1)

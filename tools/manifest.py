#!/usr/bin/env python3
"""Regenerate MANIFEST.json and Verif.lean from the theorem names `Cnn_...` in lean/Verif/Props.
Statuses/notes: tools/notes.json {"Cnn": {"status":..., "note":...}} (default: proved)."""
import re, json, glob, os
root = os.path.dirname(os.path.dirname(os.path.abspath(__file__)))
notes = {}
np_ = os.path.join(root, "tools", "notes.json")
if os.path.exists(np_): notes = json.load(open(np_))
thm = {}
mods = []
for f in sorted(glob.glob(root + "/lean/Verif/Props/*.lean")):
    mods.append("Verif.Props." + os.path.basename(f)[:-5])
    src = open(f).read()
    ns = re.findall(r"^namespace (\S+)", src, re.M)[0] + "."
    for m in re.finditer(r"^(?:protected |nonrec )?theorem (C\d\d\d?)(_\w+)", src, re.M):
        thm.setdefault(m.group(1), []).append(ns + m.group(1) + m.group(2))
props = [json.loads(l)["id"] for l in open(root + "/properties.jsonl")]
claims = []
for p in props:
    n = notes.get(p, {})
    if p in thm:
        st = n.get("status", "proved")
        claims.append({"property": p, "status": st, "theorems": thm[p], "note": n.get("note", "")})
    elif n.get("status"):
        claims.append({"property": p, "status": n["status"], "theorems": [], "note": n.get("note", "")})
extra = set(thm) - set(props)
assert not extra, extra
json.dump({"claims": claims}, open(root + "/MANIFEST.json", "w"), indent=1)
open(root + "/lean/Verif.lean", "w").write("".join("import %s\n" % m for m in mods))
print(len(claims), "claims;", sum(map(len, thm.values())), "theorems; missing:", [p for p in props if p not in thm and not notes.get(p)])

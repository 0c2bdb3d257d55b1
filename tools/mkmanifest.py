#!/usr/bin/env python3
"""Write MANIFEST.json from the theorem names in lean/Verif/Props and the notes in tools/status.json."""
import glob, json, os, re

root = os.path.dirname(os.path.dirname(os.path.abspath(__file__)))
names = {}
for path in sorted(glob.glob(root + "/lean/Verif/Props/**/*.lean", recursive=True)):
    ns = []
    for line in open(path, encoding="utf-8"):
        m = re.match(r"namespace (\S+)", line)
        if m:
            ns.append(m.group(1))
            continue
        m = re.match(r"end (\S+)", line)
        if m and ns and ns[-1] == m.group(1):
            ns.pop()
            continue
        m = re.match(r"(?:protected )?theorem ((C\d\d+)_\S+)", line)
        if m:
            names.setdefault(m.group(2), []).append(".".join(ns + [m.group(1)]))
status = json.load(open(root + "/tools/status.json", encoding="utf-8"))
props = [json.loads(l)["id"] for l in open(root + "/properties.jsonl", encoding="utf-8") if l.strip()]
claims = []
for p in props:
    if p not in status:
        if p in names:
            raise SystemExit("no status for " + p)
        continue
    s, note = status[p]
    if s != "not_applicable" and p not in names:
        raise SystemExit("no theorems for " + p)
    claims.append({"property": p, "status": s, "theorems": names.get(p, []), "note": note})
json.dump({"claims": claims}, open(root + "/MANIFEST.json", "w", encoding="utf-8"), indent=1, ensure_ascii=False)
print(len(claims), "claims,", sum(len(c["theorems"]) for c in claims), "theorems; missing:",
      " ".join(p for p in props if p not in status))

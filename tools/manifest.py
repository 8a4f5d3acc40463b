#!/usr/bin/env python3
"""Regenerates ../MANIFEST.json and ../lean/Verif/Audit.lean from the theorems named
C<nn>_* in ../lean/Verif/Props and from the statuses in status.json."""
import json, re, pathlib
root = pathlib.Path(__file__).resolve().parent.parent
props = [json.loads(l)["id"] for l in open(root / "properties.jsonl") if l.strip()]
status = json.load(open(root / "tools" / "status.json"))
thms, mods = {}, []
for f in sorted((root / "lean/Verif/Props").glob("*.lean")):
    mods.append("Verif.Props." + f.stem)
    ns = re.search(r"^namespace (\S+)", f.read_text(), re.M).group(1)
    for m in re.finditer(r"^theorem ((?:C\d\d_)+)(\S+)", f.read_text(), re.M):
        for p in m.group(1).split("_")[:-1]:
            thms.setdefault(p, []).append(f"{ns}.{m.group(1)}{m.group(2)}")
claims = []
for p in props:
    if p in thms:
        st, note = status[p]
        claims.append({"property": p, "status": st, "theorems": thms[p], "note": note})
    elif p in status:
        st, note = status[p]
        claims.append({"property": p, "status": st, "theorems": [], "note": note})
    else:
        print("no claim for", p)
json.dump({"claims": claims}, open(root / "MANIFEST.json", "w"), indent=1)
out = "".join(f"import {m}\n" for m in mods)
out += "\n/-!\n# Axioms used by the property theorems (generated by `tools/manifest.py`)\n-/\n\n"
out += "".join(f"#print axioms {t}\n" for p in props for t in thms.get(p, []))
(root / "lean/Verif/Audit.lean").write_text(out)
every = ["Verif." + ".".join(f.relative_to(root / "lean/Verif").with_suffix("").parts)
         for f in sorted((root / "lean/Verif").rglob("*.lean"))]
(root / "lean/Verif.lean").write_text("".join(f"import {m}\n" for m in every))
mark = "<!-- status: generated by tools/manifest.py -->\n"
text = (root / "DESIGN.md").read_text()
table = "| Id | Status | Notes |\n|----|--------|-------|\n" + "".join(
    f"| {c['property']} | {c['status']} | {c['note']} |\n" for c in claims)
(root / "DESIGN.md").write_text(text[:text.index(mark)] + mark + table)

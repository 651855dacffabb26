#!/usr/bin/env python3
"""Rewrite the axiom table at the end of DESIGN.md from `#print axioms` of every theorem in MANIFEST.json."""
import json, os, re, subprocess, tempfile
root = os.path.dirname(os.path.dirname(os.path.abspath(__file__)))
names = sorted({t for c in json.load(open(root + "/MANIFEST.json"))["claims"] for t in c["theorems"]})
src = "import Verif\n" + "".join(f"#print axioms {n}\n" for n in names)
path = tempfile.mktemp(suffix=".lean")
open(path, "w").write(src)
out = subprocess.run(["lake", "env", "lean", path], cwd=root + "/lean", capture_output=True, text=True).stdout
groups = {}
flat = re.sub(r"\n\s+", " ", out)
for line in flat.splitlines():
    m = re.match(r"'(.+?)' depends on axioms: \[(.*)\]", line)
    n = re.match(r"'(.+?)' does not depend on any axioms", line)
    if m: groups.setdefault(", ".join(sorted(x.strip() for x in m[2].split(","))), []).append(m[1])
    elif n: groups.setdefault("none", []).append(n[1])
got = sum(map(len, groups.values()))
assert got == len(names), (got, len(names), out[-2000:])
text = "## Axioms per theorem\n\nFrom `#print axioms` (tools/axioms.py); prefix `Jsonutils.Props.` omitted.\n"
for k in sorted(groups, key=lambda k: (k != "none", len(k))):
    text += f"\n* {k}: " + ", ".join(sorted(x.replace("Jsonutils.Props.", "") for x in groups[k])) + "\n"
d = open(root + "/DESIGN.md").read()
i = d.find("## Axioms per theorem")
d = (d[:i] if i >= 0 else d.rstrip() + "\n\n") + text
open(root + "/DESIGN.md", "w").write(d)
print({k: len(v) for k, v in groups.items()})

#!/usr/bin/env python3
"""Prints which axioms each property theorem depends on, grouped by set of axioms (needs a built project)."""
import collections
import glob
import os
import re
import subprocess
import tempfile

ROOT = os.path.join(os.path.dirname(os.path.abspath(__file__)), "..", "lean")


def main():
    mods, names = [], []
    for path in sorted(glob.glob(os.path.join(ROOT, "Verif/Props/*.lean"))):
        found = re.findall(r"^theorem (C\d+_\S+)", open(path).read(), re.M)
        if found:
            mods.append("Verif.Props." + os.path.basename(path)[:-5])
            names += found
    with tempfile.NamedTemporaryFile("w", suffix=".lean", delete=False) as out:
        out.writelines("import %s\n" % m for m in mods)
        out.writelines("#print axioms Razorback.Props.%s\n" % n for n in names)
    text = subprocess.run(["lake", "env", "lean", out.name], cwd=ROOT, capture_output=True, text=True).stdout
    os.unlink(out.name)
    groups = collections.defaultdict(list)
    for m in re.finditer(r"'Razorback\.Props\.(\S+)' (?:does not depend on any axioms|depends on axioms: \[([^\]]*)\])", text):
        groups[re.sub(r"\s+", " ", m.group(2) or "none")].append(m.group(1))
    assert sum(map(len, groups.values())) == len(names)
    for axioms, theorems in sorted(groups.items(), key=lambda e: len(e[1])):
        print("%s: %d theorems" % (axioms, len(theorems)))
        print("   " + ", ".join(sorted(theorems)))


if __name__ == "__main__":
    main()

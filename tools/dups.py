"""Names that are declared in more than one module."""
import collections, glob, os, re
ROOT = os.path.join(os.path.dirname(os.path.abspath(__file__)), "..", "lean", "Verif")
found = collections.defaultdict(set)
for path in glob.glob(os.path.join(ROOT, "**", "*.lean"), recursive=True):
    spaces = []
    for line in open(path):
        m = re.match(r"(?:noncomputable )?(namespace|section|mutual|end)\b\s*(\S*)", line)
        if m and m[1] == "end":
            if spaces:
                spaces.pop()
        elif m:
            spaces.append(m[2] if m[1] == "namespace" else "")
        m = re.match(r"(?:@\[.*?\] )?(?:theorem|def|abbrev|inductive|structure)\s+(\S+)", line)
        if m:
            found[".".join([x for x in spaces if x] + [m[1]])].add(os.path.relpath(path, ROOT))
for name, paths in sorted(found.items()):
    if len(paths) > 1:
        print(name, sorted(paths))

"""Lists the functions of the source, and whether the comments of the model's definitions cite any of their lines."""
import glob, os, re, sys
repo = "/repo"
root = os.path.join(os.path.dirname(os.path.abspath(__file__)), "..")
cited = {}
cite = re.compile(r"`((?:[\w./*-]+)\.go)(?::([\d,-]+))?`|`([\d,-]+)`")
for f in glob.glob(root + "/lean/Verif/Model/*.lean"):
    for m in re.finditer(r"/-[-!]?.*?-/", open(f).read(), re.S):
        cur = None
        for c in cite.finditer(m.group(0)):
            if c.group(1):
                cur, ranges = c.group(1), c.group(2)
            elif cur:
                ranges = c.group(3)
            else:
                continue
            for r in (ranges or "").split(","):
                if re.fullmatch(r"\d+(-\d+)?", r):
                    a, b = int(r.split("-")[0]), int(r.split("-")[-1])
                    cited.setdefault(cur, set()).update(range(a, b + 1))
for f in sorted(glob.glob(repo + "/**/*.go", recursive=True)):
    rel = os.path.relpath(f, repo)
    if rel.endswith("_test.go") or "testdata" in rel:
        continue
    lines = open(f).read().split("\n")
    yes, no = [], []
    for i, l in enumerate(lines):
        m = re.match(r"func (?:\((?:\w+ )?\*?(\w+)\) )?(\w+)", l)
        if m:
            j = i
            while not lines[j].startswith("}") and not (j == i and lines[j].endswith("}")):
                j += 1
            name = (m.group(1) + "." if m.group(1) else "") + m.group(2)
            (yes if cited.get(rel, set()) & set(range(i + 1, j + 2)) else no).append(name)
    print(f"{rel}: {len(yes)} of {len(yes)+len(no)}" + (": not " + ", ".join(no) if no else ""))

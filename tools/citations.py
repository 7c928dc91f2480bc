"""Lists what the model's citations of the source point to: the first and the last line of each range."""
import glob, os, re, sys

repo = "/repo"
model = os.path.join(os.path.dirname(__file__), "..", "lean", "Verif")
only = sys.argv[1:]
cite = re.compile(r"`((?:[\w./*-]+)\.go)(?::([\d,-]+))?`|`([\d,-]+)`")
bad = 0
for root, _, files in sorted(os.walk(model)):
    for f in sorted(files):
        path = os.path.join(root, f)
        rel = os.path.relpath(path, model)
        if only and rel not in only:
            continue
        text = open(path).read()
        for m in re.finditer(r"/-[-!].*?-/\n([^\n]*)", text, re.S):
            cur = None
            head = m.group(1)
            for c in cite.finditer(m.group(0)):
                if c.group(1):
                    cur, ranges = c.group(1), c.group(2)
                elif cur:
                    ranges = c.group(3)
                else:
                    continue
                src = os.path.join(repo, cur)
                if not glob.glob(src):
                    print(f"{rel}: no file {cur}")
                    bad += 1
                    continue
                for r in (ranges or "").split(","):
                    if not re.fullmatch(r"\d+(-\d+)?", r):
                        continue
                    lines = open(src).read().split("\n")
                    a, b = int(r.split("-")[0]), int(r.split("-")[-1])
                    if b > len(lines) or a > b:
                        print(f"{rel}: {cur} has no lines {a}-{b}")
                        bad += 1
                        continue
                    print(f"{rel} | {head[:60]} | {cur}:{a}-{b} | {lines[a-1].strip()[:60]} | {lines[b-1].strip()[:40]}")
print(bad, "bad", file=sys.stderr)

"""Lists the definitions under lean/Verif/Model whose comment cites no file of the source."""
import re, glob, os, sys
ROOT = os.path.dirname(os.path.dirname(os.path.abspath(__file__)))
DEF = re.compile(r'^(?:@\[[^\]]*\]\s*)?(?:private |protected |noncomputable |partial )*(def|abbrev|structure|inductive|instance|class)\b\s*(\S*)')
n = 0
for f in sorted(glob.glob(ROOT + '/lean/Verif/Model/*.lean')):
    ls = open(f).read().split('\n')
    for i, l in enumerate(ls):
        m = DEF.match(l)
        if not m:
            continue
        j = i - 1
        while j >= 0 and ls[j].startswith('@['):
            j -= 1
        doc = ''
        if j >= 0 and ls[j].rstrip().endswith('-/'):
            k = j
            while not ls[k].startswith('/--'):
                k -= 1
            doc = ' '.join(ls[k:j + 1])
        if '.go' not in doc:
            n += 1
            print(f"{os.path.basename(f)}:{i+1} {m.group(1)} {m.group(2)} | {doc}")
print(n)

#!/usr/bin/env python3
"""List the functions of /repo that no comment of the model cites."""
import glob, os, re, collections
root = os.path.join(os.path.dirname(os.path.abspath(__file__)), '..', 'lean', 'Verif', 'Model')
cited = collections.defaultdict(list)
for f in glob.glob(os.path.join(root, '*.lean')):
    t = open(f).read()
    for m in re.finditer(r'(\w+\.go):((?:\d+(?:-\d+)?(?:, | and |,)?)+)', t):
        for r in re.findall(r'(\d+)(?:-(\d+))?', m.group(2)):
            cited[m.group(1)].append((int(r[0]), int(r[1] or r[0])))
tot = miss = 0
for g in sorted(glob.glob('/repo/*.go')):
    b = os.path.basename(g)
    if b.endswith('_test.go'):
        continue
    ls = open(g).read().split('\n')
    i = 0
    out = []
    while i < len(ls):
        m = re.match(r'func (\([^)]*\) )?(\w+)', ls[i])
        if m:
            j = i
            if not ls[i].rstrip().endswith('}'):
                while not ls[j].startswith('}'):
                    j += 1
            tot += 1
            if not any(a <= j + 1 and i + 1 <= c for a, c in cited[b]):
                out.append('%s%s:%d-%d' % (m.group(1) or '', m.group(2), i + 1, j + 1))
            i = j
        i += 1
    miss += len(out)
    if out:
        print(b + ': ' + '; '.join(out))
print('%d of %d functions cited' % (tot - miss, tot))

"""Rewrites two sections of DESIGN.md: the coverage of /repo (from the citations in Model/*.lean) and the axioms of each
theorem of MANIFEST.json (from `#print axioms`; run after `lake build`)."""
import re, glob, os, collections, json, subprocess, tempfile
root = os.path.dirname(os.path.dirname(os.path.abspath(__file__)))
repo = '/repo'


def coverage():
    files = [f for f in glob.glob(repo + '/**/*.go', recursive=True)
             if '/vendor/' not in f and not f.endswith('_test.go') and not f.endswith('.pb.go')]
    base = collections.defaultdict(list)
    for f in files:
        base[os.path.basename(f)].append(f)
    prefer = {'xml.go': 'validator/lib/xml.go', 'fetch.go': 'sync/lib/fetch.go', 'errors.go': 'validator/pki/errors.go'}
    cites = collections.defaultdict(list)
    for m in sorted(glob.glob(root + '/lean/Verif/Model/*.lean')):
        mod = os.path.basename(m)[:-5]
        for c in re.findall(r'/-.*?-/', open(m).read(), re.S):
            cur = None
            for t in re.finditer(r'([A-Za-z_./0-9]+\.go)(?::|\b)|(?<![\w.])(\d{1,4})(?:-(\d{1,4}))?(?![\w])', c):
                if t.group(1):
                    cur = t.group(1)
                elif cur and (t.group(3) or c[t.start() - 1] == ':'):
                    a = int(t.group(2)); b = int(t.group(3) or a)
                    cands = base[os.path.basename(cur)]
                    if len(cands) > 1:
                        want = cur if '/' in cur else prefer.get(cur, cur)
                        cands = [x for x in cands if x.endswith('/' + want)]
                    for p in cands:
                        cites[p].append((a, b, mod))
    out = ['| file | modelled functions (module of `Verif/Model`) | not modelled |', '|---|---|---|']
    for f in sorted(files):
        funcs, fn = [], None
        for i, l in enumerate(open(f).read().split('\n'), 1):
            m = re.match(r'func (?:\((\w+ )?\*?(\w+)\) )?(\w+)', l)
            if m:
                fn = [(m.group(2) + '.' if m.group(2) else '') + m.group(3), i, i]
                funcs.append(fn)
            if l == '}' and fn:
                fn[2] = i
                fn = None
        yes, no = [], []
        for n, a, b in funcs:
            ms = sorted({m for x, y, m in cites[f] if x <= b and y >= a and y - x < 900})
            if ms:
                yes.append('`%s` (%s)' % (n, ', '.join(ms)))
            else:
                no.append('`%s`' % n)
        if funcs:
            out.append('| %s | %s | %s |' % (os.path.relpath(f, repo), ', '.join(yes), ', '.join(no)))
    return '\n'.join(out)


def axioms():
    thms = [t for c in json.load(open(root + '/MANIFEST.json'))['claims'] for t in c['theorems']]
    with tempfile.NamedTemporaryFile('w', suffix='.lean', delete=False) as f:
        f.write('import Verif\n' + ''.join('#print axioms %s\n' % t for t in thms))
    r = subprocess.run(['lake', 'env', 'lean', f.name], cwd=root + '/lean', capture_output=True, text=True)
    groups = collections.OrderedDict()
    for m in re.finditer(r"'Verif\.Props\.(\S+)' (?:depends on axioms: \[(.*?)\]|does not depend on any axioms)", r.stdout, re.S):
        groups.setdefault(m.group(2) or 'none', []).append(m.group(1))
    assert sum(map(len, groups.values())) == len(thms), r.stdout[-2000:]
    out = ['All names are in the namespace `Verif.Props`.', '']
    for k in sorted(groups, key=lambda k: len(k)):
        out.append('* **%s** (%d theorems): %s' % (k, len(groups[k]), ', '.join('`%s`' % x for x in groups[k])))
    return '\n'.join(out)


s = open(root + '/DESIGN.md').read()
for head, text in (('## Coverage of the code', coverage()), ('## Axioms of each theorem', axioms())):
    i = s.find('\n' + head + '\n')
    body = '\n' + head + '\n\n' + text + '\n'
    if i < 0:
        s = s.rstrip('\n') + '\n' + body
    else:
        j = s.find('\n## ', i + 2)
        s = s[:i] + body + (s[j:] if j >= 0 else '')
open(root + '/DESIGN.md', 'w').write(s)

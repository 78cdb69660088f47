"""Checks that every citation in the model points at existing lines of /repo, and prints the definitions without one."""
import re, sys, glob, os
root = os.path.dirname(os.path.dirname(os.path.abspath(__file__)))
repo = sys.argv[1] if len(sys.argv) > 1 else '/repo'
verbose = '-v' in sys.argv
bad = 0
for f in sorted(glob.glob(root + '/lean/Verif/Model/*.lean')):
    src = open(f).read()
    for m in re.finditer(r'/repo/([\w./-]+\.go)(?::(\d+)(?:-(\d+))?)?((?:,\s*\d+(?:-\d+)?)*)([^\n]*)', src):
        path = os.path.join(repo, m.group(1))
        line = src.count('\n', 0, m.start()) + 1
        where = f'{os.path.basename(f)}:{line}'
        if not os.path.exists(path):
            print('no such file', where, m.group(0)); bad += 1; continue
        lines = open(path).read().split('\n')
        if m.group(2):
            a = int(m.group(2)); b = int(m.group(3) or a)
            if not 1 <= a <= b <= len(lines):
                print('bad range', where, m.group(0)); bad += 1; continue
            names = re.findall(r'`([A-Za-z_][\w.]*)`', m.group(5))
            text = '\n'.join(lines[a-1:b])
            for n in names[:1]:
                if n.split('.')[-1] not in text:
                    print('name not in range', where, m.group(1), a, b, n); bad += 1
    for m in re.finditer(r'^(?:partial )?(?:def|structure|inductive|abbrev|class) ([\w.?\']+)', src, re.M):
        before = src[:m.start()].rstrip()
        doc = before[before.rfind('/--'):] if before.endswith('-/') else ''
        if '/repo' not in doc:
            print('no citation', os.path.basename(f), m.group(1), '|', ' '.join(doc.split())[:90])
print('problems:', bad)

"""Lines of /repo cited by the model, per file, and the functions that have no cited line."""
import re, glob, os, ast, sys
root = '/repo/src/razorback'
cited = {}
for f in glob.glob(os.path.join(os.path.dirname(__file__), '../lean/Verif/Model/*.lean')):
    s = open(f).read()
    for m in re.finditer(r'([a-z_]+\.py):((?:\d+(?:-\d+)?(?:,\s*)?)+)', s):
        for r in re.findall(r'(\d+)(?:-(\d+))?', m.group(2)):
            a = int(r[0]); b = int(r[1] or r[0])
            cited.setdefault(m.group(1), set()).update(range(a, b + 1))
for f in sorted(glob.glob(root + '/**/*.py', recursive=True)):
    name = os.path.basename(f)
    src = open(f).read()
    if name == '__init__.py': continue
    c = cited.get(name, set())
    tree = ast.parse(src)
    miss = []
    def walk(node, pre):
        for n in node.body if hasattr(node, 'body') else []:
            if isinstance(n, ast.ClassDef): walk(n, pre + n.name + '.')
            elif isinstance(n, ast.FunctionDef):
                if not (set(range(n.lineno, n.end_lineno + 1)) & c): miss.append(pre + n.name + ':%d' % n.lineno)
    walk(tree, '')
    print(name, 'cited %d of %d lines' % (len([x for x in c if x <= src.count(chr(10))]), src.count(chr(10))))
    print('   no citation:', ', '.join(miss))

"""Seeded bugs: apply each edit of a mutation file to a scratch copy of the project, rebuild, and report the theorems that fail.

usage: seed.py mutations.jsonl [--log]    (scratch copy in /tmp/seed/lean; --log appends to seeded/LOG.jsonl)
A mutation is {"file", "definition", "old", "new", "edit", "claim", "props": [modules], "tightened": []}.
"""
import json, re, shutil, subprocess, sys, os
SRC, DST = '/verif/lean', '/tmp/seed/lean'
DECL = re.compile(r'^(?:noncomputable |private |protected |@\[[^\]]*\] )*(theorem|lemma|example|def|structure|instance|abbrev)\s*([^\s:({\[]*)')

def enclosing(path, line):
    name = None
    for k, l in enumerate(open(path).read().split('\n')[:line]):
        m = DECL.match(l)
        if m:
            name = (m.group(2) or 'example') if m.group(1) != 'example' else 'example@%d' % (k + 1)
            kind = m.group(1)
    return name

def sync():
    subprocess.run(['rsync', '-a', '--checksum', '--delete', SRC + '/Verif/', DST + '/Verif/'], check=True) if shutil.which('rsync') else subprocess.run(
        f'rm -rf {DST}/Verif && cp -rp {SRC}/Verif {DST}/Verif && cp -p {SRC}/Verif.lean {DST}/Verif.lean', shell=True, check=True)

# first targets built for a model file; when they all pass the whole project is built
FIRST = {'Dict': ['Cache', 'Cast', 'Level'], 'Defaults': ['Cache', 'Port'], 'Cache': ['Cache', 'TransformCache', 'Level'], 'Memo': ['Cache'],
         'Names': ['Names', 'KernelList'], 'KernelFun': ['KernelFun', 'PSD', 'Bandwidth', 'Polynomial'], 'Transforms': ['Transforms', 'Implicit', 'KernelList'],
         'KPCA': ['KPCA', 'Variance'], 'KernelList': ['KernelList', 'KernelFun'], 'Params': ['Params', 'Optimizer']}

def build(m):
    base = m['file'].split('/')[1][:-5]
    t = ['Verif.Props.' + x for x in m.get('props') or FIRST.get(base, [base])]
    r = subprocess.run(['timeout', '400', 'lake', 'build'] + t, cwd=DST, capture_output=True, text=True)
    if r.returncode:
        return r
    return subprocess.run(['lake', 'build'], cwd=DST, capture_output=True, text=True)

def run(m):
    p = f'{DST}/Verif/{m["file"]}'
    s = open(p).read()
    if s.count(m['old']) < 1:
        return None, ['EDIT NOT FOUND']
    open(p, 'w').write(s.replace(m['old'], m['new'], 1))
    r = build(m)
    out = r.stdout + r.stderr
    failed = []
    for f, l in re.findall(r'error: (Verif/[^:]*\.lean):(\d+):', out):
        n = f.split('/', 1)[1][:-5] + ':' + str(enclosing(f'{DST}/{f}', int(l)))
        if n not in failed:
            failed.append(n)
    if r.returncode == 124:
        failed.append('(the build did not end)')
    open(p, 'w').write(s)
    return r.returncode, failed

if __name__ == '__main__':
    sync()
    subprocess.run(['lake', 'build'], cwd=DST, capture_output=True)
    for l in open(sys.argv[1]):
        if not l.strip():
            continue
        m = json.loads(l)
        rc, failed = run(m)
        print(rc, m['file'], m['definition'], '|', m['edit'], '|', failed, flush=True)
        if '--log' in sys.argv and rc is not None:
            with open('/verif/seeded/LOG.jsonl', 'a') as f:
                f.write(json.dumps({'definition': m['definition'] + ' (Verif/' + m['file'] + ')', 'edit': m['edit'], 'claim': m['claim'],
                                    'failed': failed, 'tightened': m.get('tightened', [])}) + '\n')

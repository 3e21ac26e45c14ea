#!/usr/bin/env python3
"""Apply wrong edits to a scratch copy of the model (outside /verif), rebuild, log the result.
usage: mutate.py batch.json   -- list of {file, definition, old, new, edit, claim, n?}"""
import json, os, re, subprocess, sys, shutil
SRC = '/verif/lean'; DST = '/tmp/mut/lean'; LOG = '/verif/seeded/LOG.jsonl'

def sync():
    os.makedirs(DST, exist_ok=True)
    subprocess.run(['rsync', '-a', '--delete', SRC + '/', DST + '/'], check=False) if shutil.which('rsync') else (
        shutil.rmtree(DST), shutil.copytree(SRC, DST, symlinks=True))

def enclosing(path, line):
    name = None
    try:
        ls = open(os.path.join(DST, path)).read().split('\n')
    except OSError:
        return path
    for i in range(min(line, len(ls)) - 1, -1, -1):
        m = re.match(r'\s*(?:private |protected |noncomputable )*(?:theorem|def|lemma|instance|abbrev|structure|inductive)\s+(\S+)', ls[i])
        if m:
            return m.group(1)
        if re.match(r'\s*example\b', ls[i]):
            return f'example at {path}:{i+1}'
    return f'{path}:{line}'

def props_depending(failed_files):
    """Props files that (transitively) import a failed module."""
    imp = {}
    for d, _, fs in os.walk(os.path.join(DST, 'Verif')):
        for f in fs:
            if f.endswith('.lean'):
                p = os.path.relpath(os.path.join(d, f), DST)
                imp[p] = [x.replace('.', '/') + '.lean' for x in re.findall(r'^import (Verif\S*)', open(os.path.join(d, f)).read(), re.M)]
    bad = set(failed_files); ch = True
    while ch:
        ch = False
        for p, l in imp.items():
            if p not in bad and any(x in bad for x in l):
                bad.add(p); ch = True
    return sorted(p for p in bad if '/Props/' in p)

def main():
    batch = json.load(open(sys.argv[1]))
    sync()
    for m in batch:
        p = os.path.join(DST, 'Verif', m['file'])
        orig = open(p).read()
        c = orig.count(m['old'])
        if c == 0 or (c > 1 and 'n' not in m):
            print('BAD PATTERN', c, m['definition'], m['old']); continue
        if c == 1:
            new = orig.replace(m['old'], m['new'])
        else:
            parts = orig.split(m['old']); n = m['n']
            new = m['old'].join(parts[:n + 1]) + m['new'] + m['old'].join(parts[n + 1:])
        open(p, 'w').write(new)
        r = subprocess.run(['lake', 'build'], cwd=DST, capture_output=True, text=True)
        out = r.stdout + r.stderr
        errs = re.findall(r'error: (Verif/\S+?\.lean):(\d+):\d+', out)
        names, files = [], []
        for f, l in errs:
            nm = enclosing(f, int(l))
            if nm not in names: names.append(nm)
            if f not in files: files.append(f)
        if not m['claim'].startswith('EQUIVALENT'):
            rec = {'definition': m['definition'], 'file': 'lean/Verif/' + m['file'], 'edit': m['edit'], 'claim': m['claim'],
                   'theorems_failed': names, 'properties_not_built': props_depending(files),
                   'theorems_tightened': m.get('tightened', []), 'survived': r.returncode == 0}
            open(LOG, 'a').write(json.dumps(rec) + '\n')
        print('SURVIVED' if r.returncode == 0 else 'killed', m['definition'], '|', m['edit'], '|', names[:4])
        sys.stdout.flush()
        open(p, 'w').write(orig)
main()

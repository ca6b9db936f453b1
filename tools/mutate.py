#!/usr/bin/env python3
"""Applies seeded bugs to a scratch copy of lean/ and reports which declarations stop compiling.

usage: mutate.py mutations.json [first [last]]
Each mutation: {"file", "old", "new", "definition", "edit", "claim"}; results go to stdout as JSON lines (fields of seeded/LOG.jsonl).
Waits before the next mutation while /tmp/mut/pause exists."""
import json, os, re, shutil, signal, subprocess, sys, time
GRACE = 40
root = os.path.dirname(os.path.dirname(os.path.abspath(__file__)))
scratch = '/tmp/mut/lean'
def decl(path, line):
    best = '?'
    for i, l in enumerate(open(path), 1):
        if i > line: break
        m = re.match(r'(?:@\[[^\]]*\] )?(?:private |protected |noncomputable )*(?:theorem|def|lemma|abbrev|structure|instance) (\S+)', l)
        if m: best = m.group(1)
        elif l.startswith('example'): best = f'example:{i}'
    return best
def build():
    # stops GRACE seconds after the first failure
    log = open('/tmp/mut/build.log', 'w')
    r = subprocess.Popen(['lake', 'build'], cwd=scratch, stdout=log, stderr=log, start_new_session=True)
    seen = None
    while r.poll() is None:
        time.sleep(1)
        if seen is None and re.search(r'^error: Verif/', open('/tmp/mut/build.log').read(), re.M): seen = time.time()
        if seen and time.time() - seen > GRACE: os.killpg(r.pid, signal.SIGKILL); r.wait()
    out = open('/tmp/mut/build.log').read()
    bad = {}
    for m in re.finditer(r'^error: (Verif/\S+\.lean):(\d+):\d+', out, re.M):
        bad.setdefault(m.group(1), [])
        d = decl(f'{scratch}/{m.group(1)}', int(m.group(2)))
        if d not in bad[m.group(1)]: bad[m.group(1)].append(d)
    return r.returncode, bad, out
def main():
    muts = json.load(open(sys.argv[1]))
    lo = int(sys.argv[2]) if len(sys.argv) > 2 else 0
    hi = int(sys.argv[3]) if len(sys.argv) > 3 else len(muts)
    os.makedirs('/tmp/mut', exist_ok=True)
    shutil.rmtree(scratch, ignore_errors=True); shutil.copytree(f'{root}/lean', scratch, symlinks=True)
    for i, m in enumerate(muts[lo:hi], lo):
        while os.path.exists('/tmp/mut/pause'): time.sleep(2)
        p = f'{scratch}/Verif/{m["file"]}'
        src = open(p).read()
        if src.count(m['old']) != 1:
            print(json.dumps({'n': i, 'problem': f'pattern occurs {src.count(m["old"])} times'}), flush=True); continue
        open(p, 'w').write(src.replace(m['old'], m['new']))
        code, bad, out = build()
        open(p, 'w').write(src)
        failed = [d for f in bad for d in bad[f]]
        print(json.dumps({'n': i, 'definition': m['definition'], 'edit': m['edit'], 'claim': m['claim'], 'failed': failed,
            'in': sorted(bad), 'survived': code == 0}, ensure_ascii=False), flush=True)
main()

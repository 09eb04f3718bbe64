#!/usr/bin/env python3
"""Mutation tests of the theorems, run in a scratch copy outside /verif.

usage: mutate.py mutations.json   (a list of {"file","definition","old","new","claim","props"})

Every mutation is applied to the model in the scratch copy, the library is rebuilt, and one line is appended to
/verif/seeded/LOG.jsonl with the declarations whose proofs failed and the property modules that no longer build.
"""
import json, os, re, shutil, signal, subprocess, sys, threading

SRC = os.environ.get('MUT_SRC', '/verif/lean')
SCR, LOG = '/tmp/mut/lean', '/verif/seeded/LOG.jsonl'


def decl_at(path, line):
    name = None
    for i, l in enumerate(open(path), 1):
        if i > line:
            break
        m = re.match(r'(?:@\[.*?\]\s*)?(?:private )?(theorem|def|lemma|instance|structure)\s+(\S+)', l)
        if m:
            name = m.group(2)
        elif l.startswith('example'):
            name = f'example@{i}'
    return name


def build():
    """Build the scratch copy; MUT_GRACE seconds after the first error the build is stopped."""
    grace = float(os.environ.get('MUT_GRACE', '0'))
    p = subprocess.Popen(['nice', 'lake', 'build'], cwd=SCR, stdout=subprocess.PIPE, stderr=subprocess.STDOUT, text=True,
                         start_new_session=True)
    lines, timer = [], None
    for l in p.stdout:
        lines.append(l)
        if grace and timer is None and l.startswith('error: Verif/'):
            timer = threading.Timer(grace, lambda: os.killpg(p.pid, signal.SIGTERM))
            timer.start()
    p.wait()
    if timer:
        timer.cancel()
    return ''.join(lines), p.returncode != 0


def main():
    muts = json.load(open(sys.argv[1]))
    shutil.rmtree('/tmp/mut', ignore_errors=True)
    os.makedirs('/tmp/mut')
    shutil.copytree(SRC, SCR, symlinks=True)
    for m in muts:
        path = f"{SCR}/Verif/{m['file']}"
        text = open(path).read()
        if text.count(m['old']) != 1:
            print('SKIP (pattern count', text.count(m['old']), ')', m['definition'], m['new'])
            continue
        orig = text
        open(path, 'w').write(text.replace(m['old'], m['new']))
        out, failed_build = build()
        failed = []
        for f, ln in re.findall(r'error: (Verif/\S+?\.lean):(\d+):', out):
            d = decl_at(f'{SCR}/{f}', int(ln))
            d = f'{os.path.basename(f)[:-5]}.{d}'
            if d not in failed:
                failed.append(d)
        built = set()
        for d in re.findall(r'Built (Verif\.Props\.\w+)', out):
            built.add(d)
        rec = {'definition': m['definition'], 'edit': f"{m['old']!r} -> {m['new']!r}", 'claim': m['claim'],
               'failed': failed[:25], 'survived': not failed_build, 'tightened': m.get('tightened', [])}
        print(json.dumps(rec), flush=True)
        open(LOG, 'a').write(json.dumps(rec) + '\n')
        open(path, 'w').write(orig)


main()

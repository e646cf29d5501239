"""Run seeded faults against the proofs in a scratch copy outside /verif.

usage: mutate.py FAULTS.json LOG.jsonl
FAULTS.json: list of {definition, file, old, new, edit, claim[, tightened][, targets]}
With targets (a list of modules) only these and the modules they need are elaborated, and only their
theorems are reported; the record then has the entry "checked".

For each fault the scratch copy is edited and every module downstream is elaborated, carrying on
past errors (a declaration whose proof fails is kept, resting on sorryAx, so the modules after it
are still checked).  Recorded: the declarations with errors of their own, and the property theorems
that are missing or rest on a failed proof."""
import json, subprocess, sys, pathlib, re, shutil, os
from concurrent.futures import ThreadPoolExecutor, wait, FIRST_COMPLETED
SRC = pathlib.Path('/verif/lean')
WORK = pathlib.Path(os.environ.get('MUTDIR', '/tmp/mut2')); WORK.mkdir(exist_ok=True, parents=True)
NJ = int(os.environ.get('MUTJOBS', '3'))
faults = json.load(open(sys.argv[1])); log = pathlib.Path(sys.argv[2])
(WORK / 'Driver.lean').write_text('''import Lean
open Lean Elab
unsafe def main (args : List String) : IO UInt32 := do
  let [file, modName, olean] := args | return 2
  initSearchPath (← findSysroot)
  enableInitializersExecution
  let input ← IO.FS.readFile file
  let inputCtx := Parser.mkInputContext input file
  let (header, parserState, messages) ← Parser.parseHeader inputCtx
  let opts : Options := (({} : Options).setBool `Elab.async false)
  let (env, messages) ← processHeader header opts messages inputCtx (mainModule := modName.toName)
  let s ← IO.processCommands inputCtx parserState (Command.mkState env messages opts)
  for m in s.commandState.messages.toList do
    if m.severity == .error then IO.println s!"ERR {m.pos.line}"
  writeModule s.commandState.env olean
  return 0
''')
(WORK / 'Check.lean').write_text('''import Verif
open Lean
run_meta do
  for (n, _) in (← getEnv).constants.map₁ do
    if n.getPrefix == `LRVB then
      let s := n.getString!
      if s.length > 4 && s.front == 'C' && (s.toList.getD 1 'x').isDigit then
        if (← collectAxioms n).contains ``sorryAx then IO.println s!"BAD {s}" else IO.println s!"GOOD {s}"
''')

def modules(root):
    ms = {}
    for p in [root / 'Verif.lean', *(root / 'Verif').rglob('*.lean')]:
        name = '.'.join(p.relative_to(root).with_suffix('').parts)
        ms[name] = (p, re.findall(r'^import (Verif\S*)', p.read_text(), re.M))
    return ms

def decl_at(path, line):
    lines = path.read_text().splitlines()
    for i in range(min(line, len(lines)) - 1, -1, -1):
        m = re.match(r'(?:@\[[^\]]*\] )?(?:noncomputable )?(?:private )?(theorem|lemma|def|example|instance|abbrev)\s*(\S*)', lines[i])
        if m:
            return m.group(2) if m.group(1) in ('theorem', 'lemma', 'def') else f'{m.group(1)} at {path.name}:{i+1}'
    return f'{path.name}:{line}'

base = WORK / 'src'
shutil.rmtree(base, ignore_errors=True); base.mkdir()
shutil.copytree(SRC / 'Verif', base / 'Verif'); shutil.copy(SRC / 'Verif.lean', base / 'Verif.lean')
blib = WORK / 'baselib'
shutil.rmtree(blib, ignore_errors=True); shutil.copytree(SRC / '.lake/build/lib/lean', blib)
lp = subprocess.run(['lake', 'env', 'printenv', 'LEAN_PATH'], cwd=SRC, capture_output=True, text=True).stdout.strip().split(':')
lp = [x for x in lp if not x.startswith('/verif')]
props = sorted({m for p in (base / 'Verif/Props').rglob('*.lean') for m in re.findall(r'^theorem (C\d\d\d?_\S+)', p.read_text(), re.M)})

def run(f):
    p = base / f['file']; orig = p.read_text()
    if f['old'] not in orig:
        return {'error': 'old text not found', 'definition': f['definition'], 'edit': f['edit']}
    p.write_text(orig.replace(f['old'], f['new'], f.get('count', 1)))
    lib = WORK / 'lib'; shutil.rmtree(lib, ignore_errors=True); shutil.copytree(blib, lib)
    env = dict(os.environ, LEAN_PATH=':'.join([str(lib)] + lp))
    try:
        ms = modules(base)
        start = '.'.join(pathlib.Path(f['file']).with_suffix('').parts)
        dirty = {start}
        while True:
            new = {n for n, (_, im) in ms.items() if n not in dirty and any(i in dirty for i in im)}
            if not new: break
            dirty |= new
        if f.get('targets'):
            need = set(f['targets'])
            while True:
                new = {i for n in need for i in ms[n][1]} - need
                if not new: break
                need |= new
            dirty &= need
        for n in dirty:
            for q in (lib / pathlib.Path(*n.split('.'))).parent.glob(n.split('.')[-1] + '.olean*'): q.unlink()
        failed, broken, done = [], [], set(ms) - dirty
        def comp(n):
            out = subprocess.run(['lean', '--run', str(WORK / 'Driver.lean'), str(ms[n][0]), n,
                str((lib / pathlib.Path(*n.split('.'))).with_suffix('.olean'))], env=env, capture_output=True, text=True, timeout=3000, cwd=base)
            return n, out
        todo = set(dirty); running = {}
        with ThreadPoolExecutor(NJ) as ex:
            while todo or running:
                for n in sorted(todo):
                    if all(i in done for i in ms[n][1]):
                        todo.discard(n); running[ex.submit(comp, n)] = n
                fin, _ = wait(running, return_when=FIRST_COMPLETED)
                for t in fin:
                    n = running.pop(t); done.add(n); _, out = t.result()
                    if out.returncode: broken.append(n)
                    for m in re.finditer(r'^ERR (\d+)', out.stdout, re.M):
                        d = decl_at(ms[n][0], int(m.group(1)))
                        if d not in failed: failed.append(d)
        mine = props
        check = WORK / 'Check.lean'
        if f.get('targets'):
            mine = sorted({m for n in f['targets'] for m in re.findall(r'^theorem (C\d\d\d?_\S+)', ms[n][0].read_text(), re.M)})
            check = WORK / 'CheckTargets.lean'
            check.write_text((WORK / 'Check.lean').read_text().replace('import Verif\n', 'import Lean\n' + ''.join(f'import {n}\n' for n in f['targets'])))
        out = subprocess.run(['lean', str(check)], env=env, capture_output=True, text=True, cwd=base).stdout
        good = set(re.findall(r'^GOOD (\S+)', out, re.M))
        bad = [t for t in mine if t not in good]
        direct = [t for t in bad if t in failed]
    finally:
        p.write_text(orig)
    r = {'definition': f['definition'], 'edit': f['edit'], 'claim': f['claim'], 'failed_declarations': failed,
         'failed': bad, 'tightened': f.get('tightened', [])}
    if f.get('targets'): r['checked'] = f['targets']
    if broken: r['not_elaborated'] = broken
    return r

for f in faults:
    r = run(f)
    print(json.dumps(r, ensure_ascii=False), flush=True)
    with log.open('a') as h:
        h.write(json.dumps(r, ensure_ascii=False) + '\n')

#!/usr/bin/env python3
"""Run the crate's own tests, transcribed in Tests.lean.in, on the Lean model with hardware f32.

A fidelity check of the model, outside the Lake project: nothing here is used by any proof.
Needs a finished `lake build` in lean/."""
import pathlib, re, subprocess, sys, tempfile
here = pathlib.Path(__file__).resolve().parent
lean = here.parent.parent / 'lean'
src = (lean / 'Verif/Model/LinearDelay.lean').read_text()

def grab(name):
    m = re.search(r'noncomputable def LinearDelay\.%s .*?(?=\n\n)' % name, src, re.S)
    return m.group(0)

code = grab('setDelay') + '\n\n' + grab('new')
code = (code.replace('noncomputable def LinearDelay.', 'def ').replace('whileLoop', 'whileExec')
        .replace('LinearDelay.setDelay', 'setDelayX').replace('def setDelay', 'def setDelayX')
        .replace('def new', 'def newX'))
with tempfile.TemporaryDirectory() as d:
    p = pathlib.Path(d) / 'Tests.lean'
    p.write_text(code.join((here / 'Tests.lean.in').read_text().rsplit('@@LINEAR@@', 1)))
    sys.exit(subprocess.run(['lake', 'env', 'lean', str(p)], cwd=lean).returncode)

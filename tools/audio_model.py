#!/usr/bin/env python3
"""Extracts the tables of the compiled audio network that /repo ships
(examples/audio_network/src/model_audioi16.tflite.cpp) into lean/Verif/Shipped/AudioData.lean.

Only text is copied: the tensor table (offset in the arena or constant data, bytes), the node table (inputs, outputs,
operator kind), the indices of the inputs and outputs, the scratch offsets and the arena size.
Run:  python3 tools/audio_model.py > lean/Verif/Shipped/AudioData.lean
"""
import re, sys
SRC = '/repo/examples/audio_network/src/model_audioi16.tflite.cpp'
REL = 'examples/audio_network/src/model_audioi16.tflite.cpp'
L = open(SRC).read().split('\n')
def line(pat):
    k = [i for i, l in enumerate(L) if re.search(pat, l)]
    assert len(k) == 1, (pat, k)
    return k[0]
# tensors
T = []
t0 = line(r'^TfLiteTensor tflTensors\[\]')
for k in range(t0 + 1, len(L)):
    m = re.match(r'^\{?\{ \{\(int32_t\*\)(?:\(tensor_arena \+ (\d+)\)|g0\.tensor_data(\d+))\},\(TfLiteIntArray\*\)&g0\.(tensor_dimension\d+), (\w+), .*,(\d+), (kTfLite\w+), ', L[k])
    if not m: break
    T.append((None if m.group(1) is None else int(m.group(1)), m.group(3), m.group(4), int(m.group(5)), m.group(6)))
t1 = k
assert L[t1].startswith('};')
ins, outs = {}, {}
n0 = n1 = None
for i, l in enumerate(L):
    m = re.match(r'const TfArray<\d+, int> (inputs|outputs)(\d+) = \{ \d+, \{ ([-\d,]*) \} \};', l)
    if m:
        (ins if m.group(1) == 'inputs' else outs)[int(m.group(2))] = [int(x) for x in m.group(3).split(',') if x]
        if n0 is None: n0 = i
        n1 = i
u = line(r'^used_operators_e used_ops')
used = re.findall(r'OP_\w+', L[u + 1])
nodes = []
nt = line(r'^TfLiteNode tflNodes\[\]')
for k in range(nt + 1, len(L)):
    m = re.match(r'\{?\{ \(TfLiteIntArray\*\)&g0.inputs(\d+), \(TfLiteIntArray\*\)&g0.outputs(\d+),', L[k])
    if not m: break
    nodes.append((int(m.group(1)), int(m.group(2))))
def intlist(pat):
    k = line(pat); s = ' '.join(L[k:k + 3])
    return k, [int(x) for x in re.search(r'\{([\d, ]*)\}', s).group(1).split(',') if x.strip()]
ki, inT = intlist(r'inTensorIndices\[\] =')
ko, outT = intlist(r'outTensorIndices\[\] =')
ks, scr = intlist(r'scratch_buffer_offsets\[27\]')
ka = line(r'constexpr int kTensorArenaSize =')
arena = int(re.search(r'= (\d+)', L[ka]).group(1))
assert len(T) == 181 and len(used) == len(nodes) == 89
def wrap(xs, per=16, ind='    '):
    s = [str(x) for x in xs]
    return (',\n' + ind).join(', '.join(s[i:i + per]) for i in range(0, len(s), per))
p = sys.stdout.write
p('''/-
GENERATED by tools/audio_model.py.  The tables of the compiled audio network that the repository ships:
%s.  Nothing is computed here, the numbers are copied.
-/
namespace Verif.Shipped

''' % REL)
p('/-- %s %d-%d: the arena offset of every tensor, `none` if its data is a constant table. -/\n' % (REL, t0 + 2, t1))
p('def tensorOffsets : List (Option Nat) :=\n  [ %s ]\n\n' % wrap(['none' if t[0] is None else '%s' % ('some %d' % t[0]) for t in T], 10))
p('/-- %s %d-%d: the `bytes` field of every tensor. -/\n' % (REL, t0 + 2, t1))
p('def tensorBytes : List Nat :=\n  [ %s ]\n\n' % wrap([t[3] for t in T]))
p('/-- %s %d-%d: `inputsN` of every node; -1 is an absent input. -/\n' % (REL, n0 + 1, n1 + 1))
p('def nodeInputs : List (List Int) :=\n  [ %s ]\n\n' % wrap([ins[a] for a, b in nodes], 6))
p('/-- %s %d-%d: `outputsN` of every node. -/\n' % (REL, n0 + 1, n1 + 1))
p('def nodeOutputs : List (List Nat) :=\n  [ %s ]\n\n' % wrap([outs[b] for a, b in nodes], 10))
kinds = sorted(set(used))
p('/-- %s %d-%d: the operators used. -/\ninductive OpKind where\n' % (REL, u + 1, u + 2))
nm = {x: {'OP_XC_unaryi16': 'unaryI16', 'OP_XC_binaryi16': 'binaryI16', 'OP_XC_pad_v2': 'pad', 'OP_XC_conv2d_v2': 'conv2d', 'OP_UNPACK': 'unpack', 'OP_SPLIT': 'split', 'OP_SPLIT_V': 'splitV', 'OP_XC_lookup': 'lookup', 'OP_PACK': 'pack', 'OP_TRANSPOSE': 'transpose', 'OP_CONCATENATION': 'concatenation', 'OP_XC_slice': 'slice', 'OP_LOGISTIC': 'logistic'}[x] for x in kinds}
for x in kinds: p('  | %s\n' % nm[x])
p('deriving DecidableEq, Repr\n\n')
p('/-- %s %d: `used_ops`, the operator of every node. -/\n' % (REL, u + 2))
p('def usedOps : List OpKind :=\n  [ %s ]\n\n' % wrap(['.' + nm[x] for x in used], 8))
p('/-- %s %d-%d. -/\ndef inTensorIndices : List Nat := %s\n\n' % (REL, ki + 1, ki + 3, inT))
p('/-- %s %d-%d. -/\ndef outTensorIndices : List Nat := %s\n\n' % (REL, ko + 1, ko + 3, outT))
p('/-- %s %d. -/\ndef scratchBufferOffsets : List Nat :=\n  [ %s ]\n\n' % (REL, ks + 1, wrap(scr)))
p('/-- %s %d. -/\ndef tensorArenaSize : Nat := %d\n\nend Verif.Shipped\n' % (REL, ka + 1, arena))

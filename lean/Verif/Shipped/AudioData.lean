/-
GENERATED by tools/audio_model.py.  The tables of the compiled audio network that the repository ships:
examples/audio_network/src/model_audioi16.tflite.cpp.  Nothing is computed here, the numbers are copied.
-/
namespace Verif.Shipped

/-- examples/audio_network/src/model_audioi16.tflite.cpp 13158-13338: the arena offset of every tensor, `none` if its data is a constant table. -/
def tensorOffsets : List (Option Nat) :=
  [ some 256, some 0, none, none, none, none, none, none, none, none,
    none, none, none, none, none, none, none, none, none, none,
    none, none, none, none, none, none, none, none, none, none,
    none, none, none, none, none, none, none, none, none, none,
    none, none, none, none, none, none, none, none, none, none,
    none, none, none, none, none, none, none, none, none, none,
    none, none, none, none, none, none, none, none, none, none,
    none, none, none, none, none, none, none, none, none, none,
    some 6784, some 128, none, some 0, none, some 6656, some 2144, some 0, some 2176, some 0,
    some 2240, some 0, some 4096, some 0, some 1824, some 0, some 5632, some 0, some 1152, some 0,
    some 384, some 0, some 1024, some 896, some 768, some 0, some 384, some 640, some 512, some 128,
    some 0, some 384, none, some 256, some 128, some 0, some 128, some 0, some 128, some 0,
    some 10752, some 0, some 512, some 256, some 0, none, some 256, some 0, some 768, some 0,
    some 768, some 1152, some 576, some 0, some 576, none, some 0, some 3360, some 0, some 1824,
    some 0, some 1536, some 2432, some 1216, some 0, some 1216, none, some 0, some 5632, some 0,
    some 2560, some 0, some 2560, some 0, some 1280, some 0, none, some 1024, some 0, some 2560,
    some 0, some 2560, some 4480, some 2240, some 0, some 2240, none, some 0, some 8704, some 2144,
    some 0, some 2144, some 4608, some 0, some 6752, some 4608, some 0, some 136, some 512, some 256,
    some 0 ]

/-- examples/audio_network/src/model_audioi16.tflite.cpp 13158-13338: the `bytes` field of every tensor. -/
def tensorBytes : List Nat :=
  [ 256, 256, 4, 12, 12, 4, 4, 4, 64, 64, 1024, 4, 64, 64, 1024, 4,
    64, 1024, 4, 64, 64, 1024, 32, 64, 1024, 64, 1024, 64, 1024, 32, 64, 1024,
    8, 8, 256, 2816, 256, 3072, 384, 7680, 384, 7168, 512, 15616, 512, 12288, 256, 4096,
    1536, 12288, 1536, 12288, 256, 1024, 1024, 256, 3072, 256, 2048, 1024, 512, 256, 3072, 256,
    3072, 2048, 384, 256, 2816, 256, 3072, 256, 2816, 256, 3072, 2048, 256, 128, 3072, 2048,
    128, 128, 2, 128, 2, 128, 2048, 2144, 2048, 2176, 2048, 2240, 1536, 1728, 1536, 1824,
    1024, 1152, 512, 128, 128, 384, 128, 128, 128, 384, 128, 128, 128, 128, 128, 128,
    2, 128, 128, 128, 128, 128, 128, 128, 128, 128, 128, 256, 256, 64, 256, 256,
    256, 768, 256, 384, 576, 576, 512, 64, 512, 512, 1824, 1024, 1536, 512, 768, 1216,
    1216, 1024, 64, 1024, 1024, 1728, 1536, 2560, 1024, 1280, 1152, 1024, 64, 1024, 1024, 1024,
    2560, 1024, 1280, 2240, 2240, 2048, 64, 2048, 2048, 2048, 2144, 2048, 4096, 4608, 2144, 2144,
    134, 128, 128, 256, 256 ]

/-- examples/audio_network/src/model_audioi16.tflite.cpp 12927-13154: `inputsN` of every node; -1 is an absent input. -/
def nodeInputs : List (List Int) :=
  [ [1, 5], [0, 6], [81, 82, 7], [83, 84, 8], [85], [86],
    [87, 35, 34, -1], [88], [89, 37, 36, -1], [90], [91, 39, 38, -1], [92],
    [93, 41, 40, -1], [94], [95, 43, 42, -1], [96], [97, 45, 44, -1], [98, 47, 46, -1],
    [99], [100, 49, 48, -1], [2, 101], [80, 51, 50, -1], [105, 3, 2], [102, 106, 9],
    [109, 10], [110, 80, 11], [112, 110, 12], [103, 107, 13], [114, 14], [115, 108, 15],
    [104, 116, 16], [117, 17], [113, 118, 18], [111, 119, 19], [120], [121, 4],
    [122, 53, 52, -1], [122, 54, 52, 123], [124, 125, 20], [126, 21], [127, 22], [128, 98],
    [129, 56, 55, -1], [130], [131, 58, 57, -1], [131, 59, 57, 132], [133], [134, 135, 23],
    [136, 24], [94], [138, 43, 60, -1], [137, 139], [140, 62, 61, -1], [141],
    [142, 64, 63, -1], [142, 65, 63, 143], [144], [145, 146, 25], [147, 26], [92],
    [149, 41, 66, -1], [148, 150], [151, 68, 67, -1], [152], [153, 70, 69, -1], [154],
    [155, 156, 27], [157, 28], [158, 29], [159, 92], [160, 72, 71, -1], [161],
    [162, 74, 73, -1], [162, 75, 73, 163], [164], [165, 166, 30], [167, 31], [85],
    [169], [170, 35, 76, -1], [168, 171], [172], [173, 78, 77, -1], [173, 79, 77, 174],
    [175], [176], [177], [120, 32], [178, 33] ]

/-- examples/audio_network/src/model_audioi16.tflite.cpp 12927-13154: `outputsN` of every node. -/
def nodeOutputs : List (List Nat) :=
  [ [80], [81], [83], [85], [86], [87], [88], [89], [90], [91],
    [92], [93], [94], [95], [96], [97], [98], [99], [100], [101],
    [102, 103, 104], [105], [106, 107, 108], [109], [110], [111], [113], [114], [115], [116],
    [117], [118], [119], [120], [121], [122], [123], [124], [126], [127],
    [128], [129], [130], [131], [132], [133], [134], [136], [137], [138],
    [139], [140], [141], [142], [143], [144], [145], [147], [148], [149],
    [150], [151], [152], [153], [154], [155], [157], [158], [159], [160],
    [161], [162], [163], [164], [165], [167], [168], [169], [170], [171],
    [172], [173], [174], [175], [176], [177], [178], [179], [180] ]

/-- examples/audio_network/src/model_audioi16.tflite.cpp 13433-13434: the operators used. -/
inductive OpKind where
  | concatenation
  | logistic
  | pack
  | split
  | splitV
  | transpose
  | unpack
  | binaryI16
  | conv2d
  | lookup
  | pad
  | slice
  | unaryI16
deriving DecidableEq, Repr

/-- examples/audio_network/src/model_audioi16.tflite.cpp 13434: `used_ops`, the operator of every node. -/
def usedOps : List OpKind :=
  [ .unaryI16, .unaryI16, .binaryI16, .binaryI16, .pad, .pad, .conv2d, .pad,
    .conv2d, .pad, .conv2d, .pad, .conv2d, .pad, .conv2d, .pad,
    .conv2d, .conv2d, .unpack, .conv2d, .split, .conv2d, .splitV, .binaryI16,
    .lookup, .binaryI16, .binaryI16, .binaryI16, .lookup, .binaryI16, .binaryI16, .lookup,
    .binaryI16, .binaryI16, .pack, .transpose, .conv2d, .conv2d, .binaryI16, .lookup,
    .unaryI16, .concatenation, .conv2d, .pad, .conv2d, .conv2d, .slice, .binaryI16,
    .lookup, .pad, .conv2d, .concatenation, .conv2d, .pad, .conv2d, .conv2d,
    .slice, .binaryI16, .lookup, .pad, .conv2d, .concatenation, .conv2d, .pad,
    .conv2d, .slice, .binaryI16, .lookup, .unaryI16, .concatenation, .conv2d, .pad,
    .conv2d, .conv2d, .slice, .binaryI16, .lookup, .pad, .pad, .conv2d,
    .concatenation, .pad, .conv2d, .conv2d, .slice, .slice, .logistic, .unaryI16,
    .unaryI16 ]

/-- examples/audio_network/src/model_audioi16.tflite.cpp 13445-13447. -/
def inTensorIndices : List Nat := [0, 1]

/-- examples/audio_network/src/model_audioi16.tflite.cpp 13449-13451. -/
def outTensorIndices : List Nat := [179, 180]

/-- examples/audio_network/src/model_audioi16.tflite.cpp 13459. -/
def scratchBufferOffsets : List Nat :=
  [ 6912, 6912, 6912, 6912, 6912, 6912, 6912, 6912, 6912, 6784, 6784, 10880, 10880, 6784, 10880, 10880,
    10880, 10880, 10880, 10880, 10880, 10880, 10880, 10880, 10880, 10880, 10880 ]

/-- examples/audio_network/src/model_audioi16.tflite.cpp 66. -/
def tensorArenaSize : Nat := 50608

end Verif.Shipped

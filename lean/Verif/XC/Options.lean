import Mathlib.Tactic.Ring
import Mathlib.Data.List.Basic
/-!
C71, C72: the options of the custom operators (xformer/Transforms/TranslateToCustomOp.cpp).

Contract of `flexbuffers::Builder` (flatbuffers, not in /repo), default flags: a key is appended with a zero byte; a string is
appended as its length, in the smallest of 1, 2, 4, 8 bytes that can hold it and aligned to that width, then its bytes and a zero
byte; what it makes is a map from keys to values that the runtime queries by key.
-/
namespace Verif.XC.Options

abbrev Bytes := List Nat

/-! ### Contract: layout of keys and strings -/

/-- What is appended to the buffer, in order. -/
inductive Item
  | key (len : Nat)
  | str (len : Nat)
deriving DecidableEq, Repr

/-- Bytes of the length field of a string. -/
def lenWidth (n : Nat) : Nat := if n < 256 then 1 else if n < 65536 then 2 else if n < 4294967296 then 4 else 8

/-- The first multiple of `w` from `pos` on. -/
def alignTo (pos w : Nat) : Nat := (pos + w - 1) / w * w

/-- Where the data of a string that is appended at `pos` starts. -/
def dataAt (pos len : Nat) : Nat := alignTo pos (lenWidth len) + lenWidth len

/-- Positions of the data of the strings of `items`, appended from `pos` on. -/
def strings : Nat → List Item → List Nat
  | _, [] => []
  | pos, .key n :: r => strings (pos + n + 1) r
  | pos, .str n :: r => dataAt pos n :: strings (dataAt pos n + n + 1) r

/-! ### Values and maps -/

inductive Val
  | int (n : Int)
  | bool (b : Bool)
  | str (s : Bytes)
  | float (bits : Nat)
  | vec (l : List Val)

/-- What the runtime gets for a key. -/
def look (m : List (String × Val)) (k : String) : Option Val := (m.find? fun p => p.1 == k).map Prod.snd

/-! ### Model: operators and their options -/

/-- `Conv2DType` and `OtType` (XCoreOps.td 54-85). -/
inductive ConvType
  | validDirect | validIndirect | paddedIndirect | dwValidDirect | dwPaddedIndirect | bnnDirectBinary | bnnIndirectBinary
  | bnnDirectInt8 | bnnIndirectInt8 | validDirectI16
deriving DecidableEq, Repr

def ConvType.num : ConvType → Int
  | .validDirect => 0
  | .validIndirect => 1
  | .paddedIndirect => 2
  | .dwValidDirect => 3
  | .dwPaddedIndirect => 4
  | .bnnDirectBinary => 5
  | .bnnIndirectBinary => 6
  | .bnnDirectInt8 => 7
  | .bnnIndirectInt8 => 8
  | .validDirectI16 => 9

/-- Operators without options (TranslateToCustomOp.cpp 15-17, 33, 41-48). -/
inductive Plain
  | expand8To16 | fakeScratch | bsign8 | fakeSlice | betaConcat | betaConv | betaTransposeConv | betaFc | lookup | softmax
  | batchedSoftmax
deriving DecidableEq, Repr

/-- Operators with the attributes that matter to the runtime (XCoreOps.td 87-473).  Floats are their 32 bits; `thread_count` is
the number of kernel parameter strings that are used. -/
inductive Op
  | plain (p : Plain)
  | unaryI16 (type : Int)
  | binaryI16 (type : Int)
  | betaActivation (type : Int)
  | add (m1 m2 bias shift : Int)
  | mul (params : Bytes)
  | mean (start mean last : Int) (inZp outZp scaleMul : Nat)
  | slice (start offset size numCopies : Int) (vpu : Bool)
  | broadcast (size numCopies numBroadcasts : Int) (vpu : Bool)
  | pad (start padSize size numCopies zeroPoint last : Int) (vpu : Bool)
  | concat (numCopies : Int) (sizes : List Int) (numInputs : Int) (vpu : Bool)
  | loadWeights (address : Int) (sizes : List Int) (inDdr : Bool)
  | pad3To4 (padValue : Int)
  | conv (memcpy aggregate outTransform : Bytes) (scratch : Int) (threads : Nat) (kernels : List Bytes) (kind : ConvType)
      (channelwise : Bool)
  | maxPool (memcpy aggregate outTransform : Bytes) (scratch : Int) (threads : Nat) (kernels : List Bytes)

/-- The mnemonics (XCoreOps.td). -/
def Plain.mnemonic : Plain → String
  | .expand8To16 => "expand_8_to_16"
  | .fakeScratch => "fake_scratch"
  | .bsign8 => "bsign_8"
  | .fakeSlice => "fake_slice"
  | .betaConcat => "beta_concatf32"
  | .betaConv => "beta_convf32"
  | .betaTransposeConv => "beta_transposeconvf32"
  | .betaFc => "beta_fcf32"
  | .lookup => "lookup"
  | .softmax => "softmax"
  | .batchedSoftmax => "batched_softmax"

def Op.mnemonic : Op → String
  | .plain p => p.mnemonic
  | .unaryI16 _ => "unaryi16"
  | .binaryI16 _ => "binaryi16"
  | .betaActivation _ => "beta_activationf32"
  | .add .. => "add"
  | .mul _ => "mul"
  | .mean .. => "mean"
  | .slice .. => "slice"
  | .broadcast .. => "broadcast"
  | .pad .. => "pad"
  | .concat .. => "concat"
  | .loadWeights .. => "ld_weights"
  | .pad3To4 _ => "pad_3_to_4"
  | .conv .. => "conv2d_v2"
  | .maxPool .. => "maxpool2d"

/-- The name of the custom operator (TranslateToCustomOp.cpp 256): "XC_" and the operation name `xc.<mnemonic>` without its first
three characters. -/
def Op.name (o : Op) : List Char := "XC_".toList ++ (("xc.".toList ++ o.mnemonic.toList).drop 3)

/-- `(int32_t)` of an attribute. -/
def toInt32 (n : Int) : Int := (n + 2147483648) % 4294967296 - 2147483648

/-- The first `n` entries of a list, `none` if there are fewer (an index outside the attribute). -/
def firstN {α : Type} (l : List α) (n : Nat) : Option (List α) := if n ≤ l.length then some (l.take n) else none

/-- `CONCAT_OP_MAX_INPUTS` (XCoreOps.h 33). -/
def maxInputs : Nat := 13

/-- "00" as bytes. -/
def zeros : Bytes := [48, 48]

/-- `buildCustomOptions` (TranslateToCustomOp.cpp 15-230); `none`: undefined behaviour. -/
def build : Op → Option (List (String × Val))
  | .plain _ => some []
  | .unaryI16 t => some [("type", .int (toInt32 t))]
  | .binaryI16 t => some [("type", .int (toInt32 t))]
  | .betaActivation t => some [("type", .int (toInt32 t))]
  | .add m1 m2 bias shift =>
    some [("m1", .int (toInt32 m1)), ("m2", .int (toInt32 m2)), ("bias", .int (toInt32 bias)), ("shift", .int (toInt32 shift))]
  | .mul p => some [("mp", .str p)]
  | .mean s m e i o sm =>
    some [("s", .int (toInt32 s)), ("m", .int (toInt32 m)), ("e", .int (toInt32 e)), ("i", .float i), ("o", .float o),
      ("sm", .float sm)]
  | .slice s o l n v =>
    some [("s", .int (toInt32 s)), ("o", .int (toInt32 o)), ("l", .int (toInt32 l)), ("n", .int (toInt32 n)), ("v", .bool v)]
  | .broadcast s n b v => some [("s", .int (toInt32 s)), ("n", .int (toInt32 n)), ("b", .int (toInt32 b)), ("v", .bool v)]
  | .pad s p l n z e v =>
    some [("s", .int (toInt32 s)), ("p", .int (toInt32 p)), ("l", .int (toInt32 l)), ("n", .int (toInt32 n)),
      ("z", .int (toInt32 z)), ("e", .int (toInt32 e)), ("v", .bool v)]
  | .concat n sizes i v =>
    (firstN sizes maxInputs).map fun ss =>
      [("n", .int (toInt32 n)), ("s", .vec (ss.map .int)), ("i", .int (toInt32 i)), ("v", .bool v)]
  | .loadWeights a sizes d => some [("addr", .int (toInt32 a)), ("sizes", .vec (sizes.map .int)), ("ddr", .bool d)]
  | .pad3To4 p => some [("pv", .int (toInt32 p))]
  | .conv mp a o s t ks kind cw =>
    (firstN ks t).map fun ks' =>
      [("mp", .str mp), ("a", .str a), ("o", .str o), ("p", .vec (ks'.map fun k => .str (k ++ zeros))), ("s", .int (toInt32 s)),
        ("k", .int kind.num), ("t", .int (if cw then 1 else 0))]
  | .maxPool mp a o s t ks =>
    (firstN ks t).map fun ks' =>
      [("mp", .str mp), ("a", .str a), ("o", .str o), ("p", .vec (ks'.map fun k => .str (k ++ zeros))), ("s", .int (toInt32 s))]

/-- What the builder appends for the parameter strings of convolutions and maximum pools, up to the last of them
(TranslateToCustomOp.cpp 180-196, 212-226). -/
def kernelItems (mp a o : Bytes) (ks : List Bytes) : List Item :=
  [.key "mp".length, .str mp.length, .key "a".length, .str a.length, .key "o".length, .str o.length, .key "p".length] ++
    ks.map fun k => .str (k ++ zeros).length

/-- What the builder appends for a multiplication (TranslateToCustomOp.cpp 62-67). -/
def mulItems (p : Bytes) : List Item := [.key "mp".length, .str p.length]

/-! ### C71: alignment -/

theorem dataAt_small {pos n : Nat} (h : n < 256) : dataAt pos n = pos + 1 := by
  unfold dataAt alignTo lenWidth; rw [if_pos h]; omega

theorem dataAt_large {pos n : Nat} (h : 256 ≤ n) (h2 : n < 65536) (hp : pos % 4 = 3) : dataAt pos n % 4 = 2 := by
  unfold dataAt alignTo lenWidth; rw [if_neg (by omega), if_pos h2]; omega

theorem kernels_aligned (ks : List Bytes) : ∀ pos, pos % 4 = 3 → (∀ k ∈ ks, k.length % 4 = 0 ∧ k.length + 2 < 65536) →
    ((∀ d ∈ strings pos (ks.map fun k => .str (k ++ zeros).length), d % 4 = 0) ↔ ∀ k ∈ ks, k.length + 2 < 256) := by
  induction ks with
  | nil => intro pos _ _; simp [strings]
  | cons k ks ih =>
    intro pos hp hk
    obtain ⟨h1, h2⟩ := hk k List.mem_cons_self
    have hl : (k ++ zeros).length = k.length + 2 := by simp [zeros]
    rw [List.map_cons]
    dsimp only [strings]
    rw [List.forall_mem_cons, List.forall_mem_cons, hl]
    by_cases hs : k.length + 2 < 256
    · have hd := dataAt_small (pos := pos) hs
      rw [hd, ih (pos + 1 + (k.length + 2) + 1) (by omega) fun k' h' => hk k' (List.mem_cons_of_mem _ h')]
      exact and_congr_left fun _ => iff_of_true (by omega) hs
    · have := dataAt_large (pos := pos) (n := k.length + 2) (by omega) h2 hp
      exact iff_of_false (fun h => by omega) fun h => hs h.1

/-- **C71.** In the options of a convolution or maximum pool, for every number of threads: when the parameter structures are whole
words, all of them start at multiples of four bytes if, and (for structures below 64 KB) only if, none is longer than 255 bytes
(253 for those of the threads). -/
theorem C71_aligned (mp a o : Bytes) (ks : List Bytes) (hmp : mp.length % 4 = 0 ∧ mp.length < 65536)
    (ha : a.length % 4 = 0 ∧ a.length < 65536) (ho : o.length % 4 = 0 ∧ o.length < 65536)
    (hk : ∀ k ∈ ks, k.length % 4 = 0 ∧ k.length + 2 < 65536) :
    (∀ d ∈ strings 0 (kernelItems mp a o ks), d % 4 = 0) ↔
      mp.length < 256 ∧ a.length < 256 ∧ o.length < 256 ∧ ∀ k ∈ ks, k.length + 2 < 256 := by
  have l2 : "mp".length = 2 := rfl
  have l1a : "a".length = 1 := rfl
  have l1o : "o".length = 1 := rfl
  have l1p : "p".length = 1 := rfl
  unfold kernelItems
  rw [l2, l1a, l1o, l1p]
  simp only [List.cons_append, List.nil_append, strings, List.forall_mem_cons]
  by_cases h1 : mp.length < 256
  · have d1 := dataAt_small (pos := 0 + 2 + 1) h1
    rw [d1]
    by_cases h2 : a.length < 256
    · have d2 := dataAt_small (pos := 0 + 2 + 1 + 1 + mp.length + 1 + 1 + 1) h2
      rw [d2]
      by_cases h3 : o.length < 256
      · have d3 := dataAt_small (pos := 0 + 2 + 1 + 1 + mp.length + 1 + 1 + 1 + 1 + a.length + 1 + 1 + 1) h3
        rw [d3, kernels_aligned ks _ (by omega) hk]
        constructor
        · rintro ⟨_, _, _, h⟩; exact ⟨h1, h2, h3, h⟩
        · rintro ⟨_, _, _, h⟩; exact ⟨by omega, by omega, by omega, h⟩
      · have := dataAt_large (pos := 0 + 2 + 1 + 1 + mp.length + 1 + 1 + 1 + 1 + a.length + 1 + 1 + 1) (n := o.length) (by omega)
          ho.2 (by omega)
        exact iff_of_false (fun h => by omega) fun h => h3 h.2.2.1
    · have := dataAt_large (pos := 0 + 2 + 1 + 1 + mp.length + 1 + 1 + 1) (n := a.length) (by omega) ha.2 (by omega)
      exact iff_of_false (fun h => by omega) fun h => h2 h.2.1
  · have := dataAt_large (pos := 0 + 2 + 1) (n := mp.length) (by omega) hmp.2 (by omega)
    exact iff_of_false (fun h => by omega) fun h => h1 h.1

/-- **C71** for multiplications. -/
theorem C71_mul_aligned (p : Bytes) (hp : p.length < 256) : strings 0 (mulItems p) = [4] := by
  have l2 : "mp".length = 2 := rfl
  unfold mulItems
  rw [l2]
  simp only [strings]
  rw [dataAt_small hp]

/-- Five threads: six times four strings, all aligned. -/
example : strings 0 (kernelItems (List.replicate 40 0) (List.replicate 28 0) (List.replicate 24 0)
    (List.replicate 5 (List.replicate 44 0))) = [4, 48, 80, 108, 156, 204, 252, 300] := by decide

/-- Without the two bytes "00" behind the parameters of a thread, those of the second thread would not be aligned. -/
example : ¬ ∀ d ∈ strings 0 ([Item.key 2, .str 40, .key 1, .str 28, .key 1, .str 24, .key 1, .str 44, .str 44]), d % 4 = 0 := by
  decide

/-! ### C72: nothing is lost -/

/-- 32-bit attributes. -/
def I32 (n : Int) : Prop := -2147483648 ≤ n ∧ n < 2147483648

instance (n : Int) : Decidable (I32 n) := by unfold I32; infer_instance

theorem toInt32_id {n : Int} (h : I32 n) : toInt32 n = n := by unfold toInt32 I32 at *; omega

/-- All scalar integer attributes fit 32 bits (which `I32Attr` guarantees), the lists have the entries that are read. -/
def Op.OK : Op → Prop
  | .plain _ => True
  | .unaryI16 t => I32 t
  | .binaryI16 t => I32 t
  | .betaActivation t => I32 t
  | .add m1 m2 bias shift => I32 m1 ∧ I32 m2 ∧ I32 bias ∧ I32 shift
  | .mul _ => True
  | .mean s m e _ _ _ => I32 s ∧ I32 m ∧ I32 e
  | .slice s o l n _ => I32 s ∧ I32 o ∧ I32 l ∧ I32 n
  | .broadcast s n b _ => I32 s ∧ I32 n ∧ I32 b
  | .pad s p l n z e _ => I32 s ∧ I32 p ∧ I32 l ∧ I32 n ∧ I32 z ∧ I32 e
  | .concat n sizes i _ => I32 n ∧ sizes.length = 13 ∧ I32 i
  | .loadWeights a _ _ => I32 a
  | .pad3To4 p => I32 p
  | .conv _ _ _ s t ks _ _ => I32 s ∧ ks.length = t
  | .maxPool _ _ _ s t ks => I32 s ∧ ks.length = t

theorem firstN_all {α : Type} {l : List α} {n : Nat} (h : l.length = n) : firstN l n = some l := by
  unfold firstN; rw [if_pos (by omega), ← h, List.take_length]

theorem vec_int_inj : ∀ {a b : List Int}, a.map Val.int = b.map Val.int → a = b := by
  intro a b h
  exact List.map_injective_iff.2 (fun x y h => by cases h; rfl) h

theorem vec_str_inj {a b : List Bytes} (h : (a.map fun k => Val.str (k ++ zeros)) = b.map fun k => Val.str (k ++ zeros)) : a = b := by
  refine List.map_injective_iff.2 (fun x y h => ?_) h
  simp only [Val.str.injEq, List.append_cancel_right_eq] at h
  exact h

theorem ConvType.num_inj {a b : ConvType} (h : a.num = b.num) : a = b := by
  cases a <;> cases b <;> first | rfl | (exact absurd h (by decide))

theorem Plain.mnemonic_inj {a b : Plain} (h : a.mnemonic = b.mnemonic) : a = b := by
  cases a <;> cases b <;> first | rfl | (exact absurd h (by decide))

/-- A number per kind of operator (for the case distinction in the proofs). -/
def Op.kind : Op → Nat
  | .plain _ => 0
  | .unaryI16 _ => 1
  | .binaryI16 _ => 2
  | .betaActivation _ => 3
  | .add .. => 4
  | .mul _ => 5
  | .mean .. => 6
  | .slice .. => 7
  | .broadcast .. => 8
  | .pad .. => 9
  | .concat .. => 10
  | .loadWeights .. => 11
  | .pad3To4 _ => 12
  | .conv .. => 13
  | .maxPool .. => 14

/-- The kind with a given mnemonic. -/
def kindOf (s : String) : Nat :=
  if s = "unaryi16" then 1 else if s = "binaryi16" then 2 else if s = "beta_activationf32" then 3 else if s = "add" then 4
  else if s = "mul" then 5 else if s = "mean" then 6 else if s = "slice" then 7 else if s = "broadcast" then 8
  else if s = "pad" then 9 else if s = "concat" then 10 else if s = "ld_weights" then 11 else if s = "pad_3_to_4" then 12
  else if s = "conv2d_v2" then 13 else if s = "maxpool2d" then 14 else 0

theorem kindOf_mnemonic (o : Op) : kindOf o.mnemonic = o.kind := by
  cases o with
  | plain p => cases p <;> decide
  | _ => dsimp only [Op.mnemonic, Op.kind] <;> decide

theorem name_inj {a b : Op} (h : a.name = b.name) : a.mnemonic = b.mnemonic := by
  unfold Op.name at h
  have h2 : ∀ s : String, ("xc.".toList ++ s.toList).drop 3 = s.toList := fun s => by
    rw [List.drop_left' (by decide)]
  rw [h2, h2, List.append_cancel_left_eq] at h
  exact String.toList_inj.1 h

/-- **C72.** Options are built for every operator, and no key occurs twice. -/
theorem C72_keys_distinct (o : Op) (ok : o.OK) : ∃ m, build o = some m ∧ (m.map Prod.fst).Nodup := by
  cases o with
  | plain p => exact ⟨_, rfl, (by dsimp only [List.map]; decide)⟩
  | concat n sizes i v =>
    have := firstN_all ok.2.1
    exact ⟨_, by dsimp only [build, maxInputs]; rw [this]; rfl, (by dsimp only [List.map]; decide)⟩
  | conv mp a o s t ks kind cw =>
    have := firstN_all ok.2
    exact ⟨_, by dsimp only [build]; rw [this]; rfl, (by dsimp only [List.map]; decide)⟩
  | maxPool mp a o s t ks =>
    have := firstN_all ok.2
    exact ⟨_, by dsimp only [build]; rw [this]; rfl, (by dsimp only [List.map]; decide)⟩
  | _ => exact ⟨_, rfl, (by dsimp only [List.map]; decide)⟩

/-- **C72.** Name and options determine the operator: two operators for which the runtime sees the same name and the same value
under every key have the same attributes. -/
theorem C72_nothing_lost (a b : Op) (ha : a.OK) (hb : b.OK) (hn : a.name = b.name) (ma mb : List (String × Val))
    (hma : build a = some ma) (hmb : build b = some mb) (h : ∀ k, look ma k = look mb k) : a = b := by
  have hm := name_inj hn
  have hk : a.kind = b.kind := by rw [← kindOf_mnemonic, ← kindOf_mnemonic, hm]
  cases a with
  | plain p =>
    cases b with
    | plain q => rw [Plain.mnemonic_inj hm]
    | _ => exact absurd hk (by dsimp only [Op.kind]; decide)
  | unaryI16 type1 =>
    cases b with
    | unaryI16 type2 =>
      cases hma; cases hmb
      have e0 := h "type"
      simp [look] at e0
      rw [toInt32_id ha, toInt32_id hb] at e0
      rw [e0]
    | _ => exact absurd hk (by dsimp only [Op.kind]; decide)
  | binaryI16 type1 =>
    cases b with
    | binaryI16 type2 =>
      cases hma; cases hmb
      have e0 := h "type"
      simp [look] at e0
      rw [toInt32_id ha, toInt32_id hb] at e0
      rw [e0]
    | _ => exact absurd hk (by dsimp only [Op.kind]; decide)
  | betaActivation type1 =>
    cases b with
    | betaActivation type2 =>
      cases hma; cases hmb
      have e0 := h "type"
      simp [look] at e0
      rw [toInt32_id ha, toInt32_id hb] at e0
      rw [e0]
    | _ => exact absurd hk (by dsimp only [Op.kind]; decide)
  | add m11 m21 bias1 shift1 =>
    cases b with
    | add m12 m22 bias2 shift2 =>
      cases hma; cases hmb
      have e0 := h "m1"
      have e1 := h "m2"
      have e2 := h "bias"
      have e3 := h "shift"
      simp [look] at e0 e1 e2 e3
      rw [toInt32_id ha.1, toInt32_id hb.1] at e0
      rw [toInt32_id ha.2.1, toInt32_id hb.2.1] at e1
      rw [toInt32_id ha.2.2.1, toInt32_id hb.2.2.1] at e2
      rw [toInt32_id ha.2.2.2, toInt32_id hb.2.2.2] at e3
      rw [e0, e1, e2, e3]
    | _ => exact absurd hk (by dsimp only [Op.kind]; decide)
  | mul mp1 =>
    cases b with
    | mul mp2 =>
      cases hma; cases hmb
      have e0 := h "mp"
      simp [look] at e0
      rw [e0]
    | _ => exact absurd hk (by dsimp only [Op.kind]; decide)
  | mean s1 m1 e1 i1 o1 sm1 =>
    cases b with
    | mean s2 m2 e2 i2 o2 sm2 =>
      cases hma; cases hmb
      have e0 := h "s"
      have e1 := h "m"
      have e2 := h "e"
      have e3 := h "i"
      have e4 := h "o"
      have e5 := h "sm"
      simp [look] at e0 e1 e2 e3 e4 e5
      rw [toInt32_id ha.1, toInt32_id hb.1] at e0
      rw [toInt32_id ha.2.1, toInt32_id hb.2.1] at e1
      rw [toInt32_id ha.2.2, toInt32_id hb.2.2] at e2
      rw [e0, e1, e2, e3, e4, e5]
    | _ => exact absurd hk (by dsimp only [Op.kind]; decide)
  | slice s1 o1 l1 n1 v1 =>
    cases b with
    | slice s2 o2 l2 n2 v2 =>
      cases hma; cases hmb
      have e0 := h "s"
      have e1 := h "o"
      have e2 := h "l"
      have e3 := h "n"
      have e4 := h "v"
      simp [look] at e0 e1 e2 e3 e4
      rw [toInt32_id ha.1, toInt32_id hb.1] at e0
      rw [toInt32_id ha.2.1, toInt32_id hb.2.1] at e1
      rw [toInt32_id ha.2.2.1, toInt32_id hb.2.2.1] at e2
      rw [toInt32_id ha.2.2.2, toInt32_id hb.2.2.2] at e3
      rw [e0, e1, e2, e3, e4]
    | _ => exact absurd hk (by dsimp only [Op.kind]; decide)
  | broadcast s1 n1 b1 v1 =>
    cases b with
    | broadcast s2 n2 b2 v2 =>
      cases hma; cases hmb
      have e0 := h "s"
      have e1 := h "n"
      have e2 := h "b"
      have e3 := h "v"
      simp [look] at e0 e1 e2 e3
      rw [toInt32_id ha.1, toInt32_id hb.1] at e0
      rw [toInt32_id ha.2.1, toInt32_id hb.2.1] at e1
      rw [toInt32_id ha.2.2, toInt32_id hb.2.2] at e2
      rw [e0, e1, e2, e3]
    | _ => exact absurd hk (by dsimp only [Op.kind]; decide)
  | pad s1 p1 l1 n1 z1 e1 v1 =>
    cases b with
    | pad s2 p2 l2 n2 z2 e2 v2 =>
      cases hma; cases hmb
      have e0 := h "s"
      have e1 := h "p"
      have e2 := h "l"
      have e3 := h "n"
      have e4 := h "z"
      have e5 := h "e"
      have e6 := h "v"
      simp [look] at e0 e1 e2 e3 e4 e5 e6
      rw [toInt32_id ha.1, toInt32_id hb.1] at e0
      rw [toInt32_id ha.2.1, toInt32_id hb.2.1] at e1
      rw [toInt32_id ha.2.2.1, toInt32_id hb.2.2.1] at e2
      rw [toInt32_id ha.2.2.2.1, toInt32_id hb.2.2.2.1] at e3
      rw [toInt32_id ha.2.2.2.2.1, toInt32_id hb.2.2.2.2.1] at e4
      rw [toInt32_id ha.2.2.2.2.2, toInt32_id hb.2.2.2.2.2] at e5
      rw [e0, e1, e2, e3, e4, e5, e6]
    | _ => exact absurd hk (by dsimp only [Op.kind]; decide)
  | concat n1 s1 i1 v1 =>
    cases b with
    | concat n2 s2 i2 v2 =>
      dsimp only [build, maxInputs] at hma hmb
      rw [firstN_all ha.2.1] at hma
      rw [firstN_all hb.2.1] at hmb
      cases hma; cases hmb
      have e0 := h "n"
      have e1 := h "s"
      have e2 := h "i"
      have e3 := h "v"
      simp [look] at e0 e1 e2 e3
      rw [toInt32_id ha.1, toInt32_id hb.1] at e0
      rw [toInt32_id ha.2.2, toInt32_id hb.2.2] at e2
      obtain rfl := vec_int_inj e1
      rw [e0, e2, e3]
    | _ => exact absurd hk (by dsimp only [Op.kind]; decide)
  | loadWeights ad1 sz1 d1 =>
    cases b with
    | loadWeights ad2 sz2 d2 =>
      cases hma; cases hmb
      have e0 := h "addr"
      have e1 := h "sizes"
      have e2 := h "ddr"
      simp [look] at e0 e1 e2
      rw [toInt32_id ha, toInt32_id hb] at e0
      obtain rfl := vec_int_inj e1
      rw [e0, e2]
    | _ => exact absurd hk (by dsimp only [Op.kind]; decide)
  | pad3To4 p1 =>
    cases b with
    | pad3To4 p2 =>
      cases hma; cases hmb
      have e0 := h "pv"
      simp [look] at e0
      rw [toInt32_id ha, toInt32_id hb] at e0
      rw [e0]
    | _ => exact absurd hk (by dsimp only [Op.kind]; decide)
  | conv mp1 ag1 o1 s1 t1 ks1 kd1 cw1 =>
    cases b with
    | conv mp2 ag2 o2 s2 t2 ks2 kd2 cw2 =>
      dsimp only [build, maxInputs] at hma hmb
      rw [firstN_all ha.2] at hma
      rw [firstN_all hb.2] at hmb
      cases hma; cases hmb
      have e0 := h "mp"
      have e1 := h "a"
      have e2 := h "o"
      have e3 := h "p"
      have e4 := h "s"
      have e5 := h "k"
      have e6 := h "t"
      simp [look] at e0 e1 e2 e3 e4 e5 e6
      rw [toInt32_id ha.1, toInt32_id hb.1] at e4
      obtain rfl := vec_str_inj e3
      have e7 : t1 = t2 := ha.2.symm.trans hb.2
      have e8 : kd1 = kd2 := ConvType.num_inj e5
      have e9 : cw1 = cw2 := by cases cw1 <;> cases cw2 <;> simp_all
      rw [e0, e1, e2, e4, e7, e8, e9]
    | _ => exact absurd hk (by dsimp only [Op.kind]; decide)
  | maxPool mp1 ag1 o1 s1 t1 ks1 =>
    cases b with
    | maxPool mp2 ag2 o2 s2 t2 ks2 =>
      dsimp only [build, maxInputs] at hma hmb
      rw [firstN_all ha.2] at hma
      rw [firstN_all hb.2] at hmb
      cases hma; cases hmb
      have e0 := h "mp"
      have e1 := h "a"
      have e2 := h "o"
      have e3 := h "p"
      have e4 := h "s"
      simp [look] at e0 e1 e2 e3 e4
      rw [toInt32_id ha.1, toInt32_id hb.1] at e4
      obtain rfl := vec_str_inj e3
      have e7 : t1 = t2 := ha.2.symm.trans hb.2
      rw [e0, e1, e2, e4, e7]
    | _ => exact absurd hk (by dsimp only [Op.kind]; decide)

/-- A convolution of two threads and a concatenation. -/
example : (Op.conv [1, 2, 3, 4] [5, 6, 7, 8] [9] 96 2 [[1, 0, 0, 0], [2, 0, 0, 0]] .validIndirect true).OK ∧
    (Op.concat 3 (List.replicate 13 8) 2 true).OK := by
  refine ⟨⟨by decide, rfl⟩, ⟨by decide, rfl, by decide⟩⟩

/-- The attributes of a concatenation of fewer than 13 inputs: `sizes` is a local array of 13 elements of which only the first
`num_inputs` are assigned (ReplaceConcat.cpp 141-155); `garbage` is what the others happen to hold. -/
def concatAttr (numCopies : Int) (sizes garbage : List Int) (vpu : Bool) : Op := .concat numCopies (sizes ++ garbage) sizes.length vpu

/-- **C72**, finding: with fewer than 13 inputs the options contain indeterminate numbers: every content of the uninitialised part
of the array gives different options, so that compiling twice need not give the same file.  What the runtime uses, the first
`num_inputs` entries, does not depend on it. -/
theorem C72_concat_indeterminate (n : Int) (sizes g1 g2 : List Int) (vpu : Bool) (h1 : sizes.length + g1.length = 13)
    (h2 : sizes.length + g2.length = 13) :
    (build (concatAttr n sizes g1 vpu) = build (concatAttr n sizes g2 vpu) ↔ g1 = g2) ∧
    (sizes ++ g1).take sizes.length = sizes := by
  refine ⟨⟨fun h => ?_, fun h => by rw [h]⟩, by simp⟩
  have e1 : firstN (sizes ++ g1) maxInputs = some (sizes ++ g1) := firstN_all (by simp [maxInputs]; omega)
  have e2 : firstN (sizes ++ g2) maxInputs = some (sizes ++ g2) := firstN_all (by simp [maxInputs]; omega)
  dsimp only [concatAttr, build] at h
  rw [e1, e2, Option.map_some, Option.map_some] at h
  have h3 := Option.some.inj h
  simp only [List.cons.injEq, Prod.mk.injEq, true_and, Val.vec.injEq, and_true] at h3
  have h4 := vec_int_inj h3
  exact List.append_cancel_left h4

end Verif.XC.Options

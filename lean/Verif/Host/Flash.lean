import Mathlib.Tactic.Ring
/-!
C31, C32: flash images (python/xmos_ai_tools/xformer/flash.py).  Bytes are natural numbers below 256.
-/
namespace Verif.Host.Flash

/-! ### Model -/

/-- `tobytes` (flash.py 66-71). -/
def tobytes (n : Nat) : List Nat := (List.range 4).map fun i => (n >>> (8 * i)) &&& 0xFF

/-- `swap_nibbles` (flash.py 74-75). -/
def swapNibbles (x : Nat) : Nat := (x &&& 0x0F) <<< 4 ||| (x &&& 0xF0) >>> 4

/-- The blobs of one engine: `self.models[i]`, `self.params[i]`, `self.ops[i]`, `self.xips[i]` (flash.py 24-29). -/
structure Engine where
  model : List Nat
  params : List Nat
  ops : List Nat
  xip : List Nat

/-- `Header` (flash.py 9-22). -/
structure Header where
  modelStart : Nat
  parametersStart : Nat
  operatorsStart : Nat
  xipStart : Nat
  length : Nat

/-- `Header.__init__` (flash.py 16-22). -/
def mkHeader (modelBytes paramsBytes opsBytes xipBytes start : Nat) : Header :=
  let modelStart := start
  let parametersStart := modelStart + modelBytes + 4
  let operatorsStart := parametersStart + paramsBytes
  let xipStart := operatorsStart + opsBytes
  let newStart := xipStart + xipBytes
  ⟨modelStart, parametersStart, operatorsStart, xipStart, newStart - start⟩

/-- The loop that creates the headers (flash.py 97-105). -/
def headers : Nat → List Engine → List Header
  | _, [] => []
  | start, e :: es =>
    let h := mkHeader e.model.length e.params.length e.ops.length e.xip.length start
    h :: headers (start + h.length) es

/-- The 32 bytes at the beginning (flash.py 109-144). -/
def magic : List Nat :=
  [0xFF, 0x00, 0x0F, 0x0F, 0x0F, 0x0F, 0x0F, 0x0F, 0xFF, 0x00, 0xFF, 0x00, 0xFF, 0x00, 0xFF, 0x00,
   0x31, 0xF7, 0xCE, 0x08, 0x31, 0xF7, 0xCE, 0x08, 0x9C, 0x63, 0x9C, 0x63, 0x9C, 0x63, 0x9C, 0x63]

/-- Version bytes (flash.py 146-148). -/
def version : List Nat := [1, 2, 0xFF ^^^ 1, 0xFF ^^^ 2]

/-- `flash_image` (flash.py 85-168). -/
def flashImage (engines : List Engine) : List Nat :=
  let start := 32 + 4 + 16 * engines.length
  let hs := headers start engines
  magic ++ version ++
    (hs.flatMap fun h => tobytes h.modelStart ++ tobytes h.parametersStart ++ tobytes h.operatorsStart ++ tobytes h.xipStart) ++
    (engines.flatMap fun e => tobytes e.model.length ++ e.model ++ e.params ++ e.ops ++ e.xip)

/-- Contents of the file written by `flash_file` (flash.py 170-178). -/
def flashFile (engines : List Engine) : List Nat := (flashImage engines).map swapNibbles

/-! ### Specification -/

/-- Little-endian 32-bit word at position `p`. -/
def word (m : List Nat) (p : Nat) : Nat :=
  m.getD p 0 + 256 * m.getD (p + 1) 0 + 65536 * m.getD (p + 2) 0 + 16777216 * m.getD (p + 3) 0

/-- `n` bytes at position `p`. -/
def slice (m : List Nat) (p n : Nat) : List Nat := (m.drop p).take n

/-- What a reader of the image finds for engine number `i`: addresses in the `i`-th 16-byte header after the 36 first
bytes; at the model address the length of the model followed by the model; at the others the blobs. -/
structure Found (img : List Nat) (i : Nat) (e : Engine) : Prop where
  model_len : word img (word img (36 + 16 * i)) = e.model.length
  model : slice img (word img (36 + 16 * i) + 4) e.model.length = e.model
  params : slice img (word img (36 + 16 * i + 4)) e.params.length = e.params
  ops : slice img (word img (36 + 16 * i + 8)) e.ops.length = e.ops
  xip : slice img (word img (36 + 16 * i + 12)) e.xip.length = e.xip

/-! ### Proofs -/

theorem tobytes_eq (n : Nat) : tobytes n = [n % 256, n / 256 % 256, n / 65536 % 256, n / 16777216 % 256] := by
  have h : ∀ m : Nat, m &&& 255 = m % 256 := fun m => Nat.and_two_pow_sub_one_eq_mod m 8
  simp only [tobytes, show List.range 4 = [0, 1, 2, 3] from rfl, List.map_cons, List.map_nil, h,
    Nat.shiftRight_eq_div_pow]
  norm_num

theorem length_tobytes (n : Nat) : (tobytes n).length = 4 := by simp [tobytes]

theorem word_tobytes (a b : List Nat) (n : Nat) (h : n < 2 ^ 32) : word (a ++ tobytes n ++ b) a.length = n := by
  have g : ∀ k, k < 4 → (a ++ tobytes n ++ b).getD (a.length + k) 0 = (tobytes n).getD k 0 := by
    intro k hk
    rw [List.getD_eq_getElem?_getD, List.append_assoc, List.getElem?_append_right (by omega), Nat.add_sub_cancel_left,
      List.getElem?_append_left (by rw [length_tobytes]; omega), List.getD_eq_getElem?_getD]
  unfold word
  have g0 := g 0 (by omega)
  rw [Nat.add_zero] at g0
  rw [g0, g 1 (by omega), g 2 (by omega), g 3 (by omega), tobytes_eq]
  simp only [List.getD_cons_zero, List.getD_cons_succ]
  omega

theorem slice_mid (a m b : List Nat) : slice (a ++ m ++ b) a.length m.length = m := by
  unfold slice
  rw [List.append_assoc, List.drop_left, List.take_left]

def body (e : Engine) : List Nat := tobytes e.model.length ++ e.model ++ e.params ++ e.ops ++ e.xip

theorem length_body (e : Engine) :
    (body e).length = 4 + e.model.length + e.params.length + e.ops.length + e.xip.length := by
  simp only [body, List.length_append, length_tobytes]

theorem headers_append (l1 : List Engine) (e : Engine) (l2 : List Engine) (start : Nat) :
    ∃ r, headers start (l1 ++ e :: l2) = headers start l1 ++
      mkHeader e.model.length e.params.length e.ops.length e.xip.length (start + (l1.flatMap body).length) :: r := by
  induction l1 generalizing start with
  | nil => exact ⟨_, rfl⟩
  | cons a l1 ih =>
    simp only [List.cons_append, headers]
    obtain ⟨r, hr⟩ := ih (start + (mkHeader a.model.length a.params.length a.ops.length a.xip.length start).length)
    refine ⟨r, ?_⟩
    have e1 : start + (mkHeader a.model.length a.params.length a.ops.length a.xip.length start).length + (l1.flatMap body).length
        = start + ((a :: l1).flatMap body).length := by
      simp only [List.flatMap_cons, List.length_append, length_body, mkHeader]
      omega
    rw [e1] at hr
    rw [hr]

theorem length_headers (l : List Engine) (start : Nat) : (headers start l).length = l.length := by
  induction l generalizing start with
  | nil => rfl
  | cons a l ih => simp [headers, ih]

theorem length_headerBytes (hs : List Header) :
    (hs.flatMap fun h => tobytes h.modelStart ++ tobytes h.parametersStart ++ tobytes h.operatorsStart ++ tobytes h.xipStart).length
      = 16 * hs.length := by
  induction hs with
  | nil => rfl
  | cons h hs ih => simp only [List.flatMap_cons, List.length_append, length_tobytes, ih, List.length_cons]; omega

/-- **C31.** In every flash image smaller than 4 GiB, every engine's header locates exactly the bytes supplied for it; the
image begins with the magic pattern and the version, and its length is the sum of its parts. -/
theorem C31_flash_image (engines : List Engine) (hsize : (flashImage engines).length < 2 ^ 32) :
    (∀ i e, engines[i]? = some e → Found (flashImage engines) i e) ∧
    slice (flashImage engines) 0 32 = magic ∧ slice (flashImage engines) 32 4 = [1, 2, 254, 253] ∧
    (flashImage engines).length = 36 + 16 * engines.length +
      (engines.map fun e => 4 + e.model.length + e.params.length + e.ops.length + e.xip.length).sum := by
  have himg : flashImage engines = magic ++ version ++
      ((headers (36 + 16 * engines.length) engines).flatMap fun h => tobytes h.modelStart ++ tobytes h.parametersStart ++
        tobytes h.operatorsStart ++ tobytes h.xipStart) ++ engines.flatMap body := rfl
  have hlen : (flashImage engines).length = 36 + 16 * engines.length +
      (engines.map fun e => 4 + e.model.length + e.params.length + e.ops.length + e.xip.length).sum := by
    rw [himg]
    simp only [List.length_append, length_headerBytes, length_headers]
    have : ∀ l : List Engine, (l.flatMap body).length =
        (l.map fun e => 4 + e.model.length + e.params.length + e.ops.length + e.xip.length).sum := by
      intro l
      induction l with
      | nil => rfl
      | cons a l ih => simp only [List.flatMap_cons, List.length_append, ih, List.map_cons, List.sum_cons, length_body]
    rw [this]
    simp [magic, version]
  refine ⟨?_, ?_, ?_, hlen⟩
  · intro i e he
    obtain ⟨hi, he⟩ := List.getElem?_eq_some_iff.1 he
    obtain ⟨l1, l2, hl, hl1⟩ : ∃ l1 l2, engines = l1 ++ e :: l2 ∧ l1.length = i := by
      refine ⟨engines.take i, engines.drop (i + 1), ?_, by simp; omega⟩
      rw [← he, List.getElem_cons_drop, List.take_append_drop]
    obtain ⟨hs, hhs⟩ := headers_append l1 e l2 (36 + 16 * engines.length)
    set start := 36 + 16 * engines.length with hstart
    set s := start + (l1.flatMap body).length with hs_def
    set hb := fun h : Header => tobytes h.modelStart ++ tobytes h.parametersStart ++ tobytes h.operatorsStart ++ tobytes h.xipStart
    set h := mkHeader e.model.length e.params.length e.ops.length e.xip.length s with hh
    have hpre1 : (magic ++ version ++ (headers start l1).flatMap hb).length = 36 + 16 * i := by
      simp only [List.length_append, hb, length_headerBytes, length_headers, hl1]
      simp [magic, version]
    set pre1 := magic ++ version ++ (headers start l1).flatMap hb with hp1
    have hA : flashImage engines = pre1 ++ (hb h ++ (hs.flatMap hb ++ engines.flatMap body)) := by
      rw [himg]
      have : headers start engines = headers start l1 ++ h :: hs := by
        conv_lhs => rw [hl]
        exact hhs
      rw [this]
      simp [hp1, hb]
    have hB : ∃ pre2 post, flashImage engines = pre2 ++ body e ++ post ∧ pre2.length = s := by
      refine ⟨magic ++ version ++ (headers start engines).flatMap hb ++ l1.flatMap body, l2.flatMap body, ?_, ?_⟩
      · rw [himg]
        conv_lhs => rw [show engines.flatMap body = l1.flatMap body ++ (body e ++ l2.flatMap body) by rw [hl]; simp]
        simp [hb]
      · simp only [List.length_append, hb, length_headerBytes, length_headers, hs_def, hstart]
        simp [magic, version]
    obtain ⟨pre2, post, hB, hp2⟩ := hB
    have hsz : s + (body e).length ≤ (flashImage engines).length := by
      rw [hB]; simp only [List.length_append]; omega
    rw [length_body] at hsz
    have w1 : word (flashImage engines) (36 + 16 * i) = s := by
      rw [hA, ← hpre1]
      have := word_tobytes pre1 (tobytes h.parametersStart ++ tobytes h.operatorsStart ++ tobytes h.xipStart ++
        (hs.flatMap hb ++ engines.flatMap body)) h.modelStart (by simp only [hh, mkHeader]; omega)
      simp only [hb, List.append_assoc] at this ⊢
      exact this
    have w2 : word (flashImage engines) (36 + 16 * i + 4) = s + e.model.length + 4 := by
      have hlp : (pre1 ++ tobytes h.modelStart).length = 36 + 16 * i + 4 := by simp only [List.length_append, length_tobytes, hpre1]
      rw [hA, ← hlp]
      have := word_tobytes (pre1 ++ tobytes h.modelStart) (tobytes h.operatorsStart ++ tobytes h.xipStart ++
        (hs.flatMap hb ++ engines.flatMap body)) h.parametersStart (by simp only [hh, mkHeader]; omega)
      simp only [hb, List.append_assoc] at this ⊢
      exact this
    have w3 : word (flashImage engines) (36 + 16 * i + 8) = s + e.model.length + 4 + e.params.length := by
      have hlp : (pre1 ++ tobytes h.modelStart ++ tobytes h.parametersStart).length = 36 + 16 * i + 8 := by
        simp only [List.length_append, length_tobytes, hpre1]
      rw [hA, ← hlp]
      have := word_tobytes (pre1 ++ tobytes h.modelStart ++ tobytes h.parametersStart) (tobytes h.xipStart ++
        (hs.flatMap hb ++ engines.flatMap body)) h.operatorsStart (by simp only [hh, mkHeader]; omega)
      simp only [hb, List.append_assoc] at this ⊢
      exact this
    have w4 : word (flashImage engines) (36 + 16 * i + 12) = s + e.model.length + 4 + e.params.length + e.ops.length := by
      have hlp : (pre1 ++ tobytes h.modelStart ++ tobytes h.parametersStart ++ tobytes h.operatorsStart).length = 36 + 16 * i + 12 := by
        simp only [List.length_append, length_tobytes, hpre1]
      rw [hA, ← hlp]
      have := word_tobytes (pre1 ++ tobytes h.modelStart ++ tobytes h.parametersStart ++ tobytes h.operatorsStart)
        (hs.flatMap hb ++ engines.flatMap body) h.xipStart (by simp only [hh, mkHeader]; omega)
      simp only [hb, List.append_assoc] at this ⊢
      exact this
    have sl : ∀ (a m b : List Nat) (p : Nat), flashImage engines = a ++ m ++ b → a.length = p →
        slice (flashImage engines) p m.length = m := by
      intro a m b p h1 h2
      rw [h1, ← h2]; exact slice_mid a m b
    constructor
    · rw [w1, hB, ← hp2]
      have := word_tobytes pre2 (e.model ++ e.params ++ e.ops ++ e.xip ++ post) e.model.length (by omega)
      simp only [body, List.append_assoc] at this ⊢
      exact this
    · rw [w1]
      exact sl (pre2 ++ tobytes e.model.length) e.model (e.params ++ e.ops ++ e.xip ++ post) _
        (by rw [hB]; simp [body]) (by simp [length_tobytes, hp2])
    · rw [w2]
      exact sl (pre2 ++ tobytes e.model.length ++ e.model) e.params (e.ops ++ e.xip ++ post) _
        (by rw [hB]; simp [body]) (by simp [length_tobytes, hp2]; omega)
    · rw [w3]
      exact sl (pre2 ++ tobytes e.model.length ++ e.model ++ e.params) e.ops (e.xip ++ post) _
        (by rw [hB]; simp [body]) (by simp [length_tobytes, hp2]; omega)
    · rw [w4]
      exact sl (pre2 ++ tobytes e.model.length ++ e.model ++ e.params ++ e.ops) e.xip post _
        (by rw [hB]; simp [body]) (by simp [length_tobytes, hp2]; omega)
  · rw [himg]
    have := slice_mid [] magic (version ++ ((headers (36 + 16 * engines.length) engines).flatMap fun h => tobytes h.modelStart ++ tobytes h.parametersStart ++
        tobytes h.operatorsStart ++ tobytes h.xipStart) ++ engines.flatMap body)
    simpa [magic] using this
  · rw [himg]
    have := slice_mid magic version (((headers (36 + 16 * engines.length) engines).flatMap fun h => tobytes h.modelStart ++ tobytes h.parametersStart ++
        tobytes h.operatorsStart ++ tobytes h.xipStart) ++ engines.flatMap body)
    simpa [magic, version] using this

/-- Two engines; the first one's model starts behind the two headers. -/
example : word (flashImage [⟨[1, 2, 3], [4], [], []⟩, ⟨[5], [6, 7], [], [8]⟩]) 36 = 68 ∧
    word (flashImage [⟨[1, 2, 3], [4], [], []⟩, ⟨[5], [6, 7], [], [8]⟩]) 56 = 81 := by decide +kernel

/-- The nibbles of a byte. -/
def lowNibble (x : Nat) : Nat := x % 16
def highNibble (x : Nat) : Nat := x / 16

/-- **C32.** Swapping exchanges the nibbles of every byte; the written file has the length of the image, and swapping it
again gives the image back. -/
theorem C32_swap (img : List Nat) (h : ∀ b ∈ img, b < 256) :
    (img.map swapNibbles).length = img.length ∧ (img.map swapNibbles).map swapNibbles = img ∧
    ∀ b ∈ img, swapNibbles b < 256 ∧ lowNibble (swapNibbles b) = highNibble b ∧ highNibble (swapNibbles b) = lowNibble b := by
  have key : ∀ b < 256, swapNibbles (swapNibbles b) = b ∧ swapNibbles b < 256 ∧
      lowNibble (swapNibbles b) = highNibble b ∧ highNibble (swapNibbles b) = lowNibble b := by decide +kernel
  refine ⟨by simp, ?_, fun b hb => (key b (h b hb)).2⟩
  rw [List.map_map]
  conv_rhs => rw [← List.map_id img]
  apply List.map_congr_left
  intro b hb
  exact (key b (h b hb)).1

/-- All bytes of an image are bytes, so C32 applies to the file that is written. -/
theorem C32_file (engines : List Engine)
    (h : ∀ e ∈ engines, ∀ b ∈ e.model ++ e.params ++ e.ops ++ e.xip, b < 256) :
    (flashFile engines).map swapNibbles = flashImage engines := by
  apply (C32_swap (flashImage engines) ?_).2.1
  intro b hb
  have tb : ∀ n, ∀ x ∈ tobytes n, x < 256 := by
    intro n x hx
    rw [tobytes_eq] at hx
    simp only [List.mem_cons, List.not_mem_nil, or_false] at hx
    rcases hx with rfl | rfl | rfl | rfl <;> exact Nat.mod_lt _ (by omega)
  unfold flashImage at hb
  simp only [List.mem_append, List.mem_flatMap] at hb
  rcases hb with ((hb | hb) | ⟨_, _, hb⟩) | ⟨e, he, hb⟩
  · revert b; decide
  · revert b; decide
  · rcases hb with ((hb | hb) | hb) | hb <;> exact tb _ _ hb
  · have := h e he b
    simp only [List.mem_append] at this
    rcases hb with (((hb | hb) | hb) | hb) | hb
    · exact tb _ _ hb
    all_goals exact this (by simp [hb])

end Verif.Host.Flash

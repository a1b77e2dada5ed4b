import Mathlib.Tactic.Ring
/-!
C28, C29: metadata with the planned offsets, and the version check (xformer/XCoreOptMain.cpp).
-/
namespace Verif.Host.Config

/-! ### C28: model -/

/-- Bytes of an `int` in memory, little-endian two's complement (`(char *)offline_offsets.data()`,
XCoreOptMain.cpp 613-614). -/
def intBytes (n : Int) : List Nat :=
  let u := (n % 4294967296).toNat
  [u % 256, u / 256 % 256, u / 65536 % 256, u / 16777216 % 256]

/-- The vector after `insert` and `resize` (XCoreOptMain.cpp 607-611); `resize` fills with 0. -/
def offsetsVector (offsets : List Int) : List Int :=
  let v := [0, 0, (offsets.length : Int)] ++ offsets
  v ++ List.replicate ((v.length + 3) / 4 * 4 - v.length) 0

/-- The metadata buffer (XCoreOptMain.cpp 592-614). -/
def offsetsBuffer (offsets : List Int) : List Nat := (offsetsVector offsets).flatMap intBytes

/-! ### C28: specification -/

/-- The `i`-th 32-bit signed word of a buffer. -/
def int32At (b : List Nat) (i : Nat) : Int :=
  let u := b.getD (4 * i) 0 + 256 * b.getD (4 * i + 1) 0 + 65536 * b.getD (4 * i + 2) 0 + 16777216 * b.getD (4 * i + 3) 0
  if u < 2147483648 then u else (u : Int) - 4294967296

/-- How the runtime reads the buffer: format version, subgraph, number `n`, then `n` offsets. -/
def decode (b : List Nat) : Int × Int × List Int :=
  (int32At b 0, int32At b 1, (List.range (int32At b 2).toNat).map fun i => int32At b (3 + i))

/-! ### C28: proof -/

theorem length_intBytes (n : Int) : (intBytes n).length = 4 := rfl

theorem int32At_flatMap (v : List Int) (i : Nat) (x : Int) (h : v[i]? = some x) (hx : -2147483648 ≤ x ∧ x < 2147483648) :
    int32At (v.flatMap intBytes) i = x := by
  obtain ⟨hi, hx'⟩ := List.getElem?_eq_some_iff.1 h
  have hlen : ∀ l : List Int, (l.flatMap intBytes).length = 4 * l.length := by
    intro l
    induction l with
    | nil => rfl
    | cons a l ih => simp only [List.flatMap_cons, List.length_append, ih, length_intBytes, List.length_cons]; omega
  have hsplit : v.flatMap intBytes = (v.take i).flatMap intBytes ++ (intBytes x ++ (v.drop (i + 1)).flatMap intBytes) := by
    conv_lhs => rw [← List.take_append_drop i v, ← List.getElem_cons_drop hi, hx']
    simp
  have g : ∀ k, k < 4 → (v.flatMap intBytes).getD (4 * i + k) 0 = (intBytes x).getD k 0 := by
    intro k hk
    have h4 : ((v.take i).flatMap intBytes).length = 4 * i := by rw [hlen]; simp; omega
    rw [hsplit, List.getD_eq_getElem?_getD, List.getElem?_append_right (by omega), h4, Nat.add_sub_cancel_left,
      List.getElem?_append_left (by rw [length_intBytes]; omega), List.getD_eq_getElem?_getD]
  unfold int32At
  have g0 := g 0 (by omega)
  rw [Nat.add_zero] at g0
  rw [g0, g 1 (by omega), g 2 (by omega), g 3 (by omega)]
  simp only [intBytes, List.getD_cons_zero, List.getD_cons_succ]
  have hu : ((x % 4294967296).toNat : Int) = x % 4294967296 := Int.toNat_of_nonneg (Int.emod_nonneg _ (by omega))
  generalize (x % 4294967296).toNat = u at *
  have : u % 256 + 256 * (u / 256 % 256) + 65536 * (u / 65536 % 256) + 16777216 * (u / 16777216 % 256) = u := by omega
  rw [this]
  split <;> omega

/-- **C28.** The buffer decodes to format version 0, subgraph 0 and exactly the planned offsets, and its length is a
multiple of 16 bytes; for every list of 32-bit offsets. -/
theorem C28_offsets_metadata (offsets : List Int) (hv : ∀ o ∈ offsets, -2147483648 ≤ o ∧ o < 2147483648)
    (hn : offsets.length < 2147483648) :
    decode (offsetsBuffer offsets) = (0, 0, offsets) ∧ 16 ∣ (offsetsBuffer offsets).length := by
  have hlen : ∀ l : List Int, (l.flatMap intBytes).length = 4 * l.length := by
    intro l
    induction l with
    | nil => rfl
    | cons a l ih => simp only [List.flatMap_cons, List.length_append, ih, length_intBytes, List.length_cons]; omega
  constructor
  · unfold decode offsetsBuffer
    rw [int32At_flatMap (offsetsVector offsets) 0 0 rfl (by omega), int32At_flatMap (offsetsVector offsets) 1 0 rfl (by omega),
      int32At_flatMap (offsetsVector offsets) 2 offsets.length rfl (by omega)]
    simp only [Int.toNat_natCast]
    congr 2
    apply List.ext_getElem (by simp)
    intro i h1 h2
    rw [List.getElem_map, List.getElem_range]
    apply int32At_flatMap
    · unfold offsetsVector
      simp only
      rw [List.getElem?_append_left (by simp; omega), List.getElem?_append_right (by simp)]
      rw [List.getElem?_eq_getElem (by simpa using h2)]
      simp
    · exact hv _ (List.getElem_mem h2)
  · unfold offsetsBuffer
    rw [hlen]
    unfold offsetsVector
    simp only [List.length_append, List.length_replicate, List.length_cons, List.length_nil]
    omega

example : decode (offsetsBuffer [73728, -1, 0]) = (0, 0, [73728, -1, 0]) ∧ (offsetsBuffer [73728, -1, 0]).length = 32 := by
  decide +kernel

/-! ### C29: model -/

/-- `llvm::SplitString` with delimiter `.`: maximal runs of other characters; empty pieces are dropped. -/
def splitDots : List Char → List Char → List (List Char)
  | cur, [] => if cur = [] then [] else [cur]
  | cur, c :: cs =>
    if c = '.' then (if cur = [] then splitDots [] cs else cur :: splitDots [] cs)
    else splitDots (cur ++ [c]) cs

/-- Digits of radix 10; accumulates. -/
def parseDigits : Nat → List Char → Option Nat
  | n, [] => some n
  | n, c :: cs => if '0' ≤ c ∧ c ≤ '9' then parseDigits (10 * n + (c.toNat - '0'.toNat)) cs else none

/-- `llvm::to_integer(s, val, 10)` for `int`: an optional minus sign, at least one digit, nothing else, no overflow. -/
def toInteger : List Char → Option Int
  | [] => none
  | '-' :: cs =>
    if cs = [] then none
    else match parseDigits 0 cs with
      | some n => if n ≤ 2147483648 then some (-(n : Int)) else none
      | none => none
  | cs =>
    match parseDigits 0 cs with
    | some n => if n < 2147483648 then some n else none
    | none => none

/-- `isCompatibleVersion` (XCoreOptMain.cpp 342-371). -/
def isCompatibleVersion (version : List Char) (major minor : Int) : Bool :=
  if version = [] then true
  else
    let partsStr := splitDots [] version
    if partsStr.length ≠ 3 then false
    else
      match partsStr.mapM toInteger with
      | none => false
      | some parts =>
        let p0 := parts.getD 0 0
        let p1 := parts.getD 1 0
        if (major = 0 ∧ p0 = 0 ∧ minor ≠ p1) ∨ major ≠ p0 ∨ minor > p1 then false else true

/-! ### C29: specification -/

/-- A non-empty string of decimal digits. -/
def IsNumber (s : List Char) : Prop := s ≠ [] ∧ ∀ c ∈ s, '0' ≤ c ∧ c ≤ '9'

/-- Its value. -/
def value (s : List Char) : Nat := s.foldl (fun n c => 10 * n + (c.toNat - '0'.toNat)) 0

/-! ### C29: proof -/

theorem parseDigits_number (s : List Char) (h : ∀ c ∈ s, '0' ≤ c ∧ c ≤ '9') (n : Nat) :
    parseDigits n s = some (s.foldl (fun n c => 10 * n + (c.toNat - '0'.toNat)) n) := by
  induction s generalizing n with
  | nil => rfl
  | cons c s ih =>
    rw [parseDigits, if_pos (h c (by simp)), ih (fun c hc => h c (by simp [hc]))]
    rfl

theorem toInteger_number (s : List Char) (h : IsNumber s) (hv : value s < 2147483648) : toInteger s = some (value s : Int) := by
  obtain ⟨hne, hd⟩ := h
  have hm : ∀ cs, s ≠ '-' :: cs := by
    rintro cs rfl
    have := hd '-' (by simp)
    revert this
    decide
  unfold toInteger
  split
  · exact absurd rfl hne
  · next cs => exact absurd rfl (hm cs)
  · rw [parseDigits_number s hd 0]
    simp only
    rw [if_pos (by exact hv)]
    rfl

theorem splitDots_number (a : List Char) (h : ∀ c ∈ a, '0' ≤ c ∧ c ≤ '9') (cur rest : List Char) :
    splitDots cur (a ++ rest) = splitDots (cur ++ a) rest := by
  induction a generalizing cur with
  | nil => simp
  | cons c a ih =>
    have hc : c ≠ '.' := by
      rintro rfl
      have := h '.' (by simp)
      revert this
      decide
    rw [List.cons_append, splitDots, if_neg hc, ih (fun c hc => h c (by simp [hc]))]
    simp

/-- **C29.** For every version `a.b.c` in decimal digits: it is accepted exactly if the major numbers agree, the minor number
is at least the compiler's, and equal to it for major number 0; the patch number does not matter. -/
theorem C29_version (a b c : List Char) (ha : IsNumber a) (hb : IsNumber b) (hc : IsNumber c)
    (va : value a < 2147483648) (vb : value b < 2147483648) (vc : value c < 2147483648) (major minor : Int) :
    isCompatibleVersion (a ++ '.' :: (b ++ '.' :: c)) major minor = true ↔
      (value a : Int) = major ∧ minor ≤ value b ∧ (major = 0 → minor = value b) := by
  have hs : splitDots [] (a ++ '.' :: (b ++ '.' :: c)) = [a, b, c] := by
    rw [splitDots_number a ha.2, List.nil_append, splitDots, if_pos rfl, if_neg ha.1]
    rw [splitDots_number b hb.2, List.nil_append, splitDots, if_pos rfl, if_neg hb.1]
    have : c = c ++ [] := by simp
    rw [this, splitDots_number c hc.2, List.nil_append, splitDots, if_neg hc.1, ← this]
  unfold isCompatibleVersion
  rw [if_neg (by simp), hs]
  simp only [List.length_cons, List.length_nil]
  rw [if_neg (by simp)]
  have hp : [a, b, c].mapM toInteger = some [(value a : Int), value b, value c] := by
    simp [toInteger_number a ha va, toInteger_number b hb vb, toInteger_number c hc vc]
  rw [hp]
  simp only [List.getD_cons_zero, List.getD_cons_succ]
  constructor
  · intro h
    by_contra hn
    rw [if_pos (by omega)] at h
    simp at h
  · intro h
    rw [if_neg (by omega)]

/-- No version given: accepted.  Not three pieces: rejected. -/
theorem C29_other (version : List Char) (major minor : Int) :
    isCompatibleVersion [] major minor = true ∧
    (version ≠ [] → (splitDots [] version).length ≠ 3 → isCompatibleVersion version major minor = false) := by
  refine ⟨rfl, ?_⟩
  intro h1 h2
  unfold isCompatibleVersion
  rw [if_neg h1]
  simp only
  rw [if_pos h2]

example : IsNumber "12".toList ∧ value "12".toList = 12 ∧ isCompatibleVersion "1.12.0".toList 1 7 = true ∧
    isCompatibleVersion "0.12.0".toList 0 7 = false ∧ isCompatibleVersion "1.2".toList 1 2 = false := by
  refine ⟨⟨by decide, by decide⟩, by decide, by decide, by decide, by decide⟩

/-! ### C29: every string -/

/-- The decimal integer literal `s` denotes `v`, a 32-bit integer: digits, or a minus sign and digits. -/
def IsInteger (s : List Char) (v : Int) : Prop :=
  (IsNumber s ∧ v = value s ∧ v < 2147483648) ∨ ∃ t, s = '-' :: t ∧ IsNumber t ∧ v = -(value t : Int) ∧ -2147483648 ≤ v

/-- Only dots. -/
def Dots (s : List Char) : Prop := ∀ c ∈ s, c = '.'

/-- The version string consists of three integers separated (and possibly surrounded) by dots. -/
def ThreeParts (version : List Char) (x y z : Int) : Prop :=
  ∃ d0 a d1 b d2 c d3, version = d0 ++ a ++ d1 ++ b ++ d2 ++ c ++ d3 ∧ Dots d0 ∧ Dots d1 ∧ Dots d2 ∧ Dots d3 ∧ d1 ≠ [] ∧ d2 ≠ [] ∧
    IsInteger a x ∧ IsInteger b y ∧ IsInteger c z

theorem parseDigits_some (s : List Char) (n m : Nat) (h : parseDigits n s = some m) :
    (∀ c ∈ s, '0' ≤ c ∧ c ≤ '9') ∧ m = s.foldl (fun n c => 10 * n + (c.toNat - '0'.toNat)) n := by
  induction s generalizing n with
  | nil => simp only [parseDigits, Option.some.injEq] at h; simp [h]
  | cons c s ih =>
    rw [parseDigits] at h
    split at h
    · obtain ⟨h1, h2⟩ := ih _ h
      refine ⟨?_, h2⟩
      intro d hd
      rcases List.mem_cons.1 hd with rfl | hd
      · assumption
      · exact h1 d hd
    · simp at h

/-- `toInteger` accepts exactly the integer literals. -/
theorem toInteger_iff (s : List Char) (v : Int) : toInteger s = some v ↔ IsInteger s v := by
  constructor
  · intro h
    unfold toInteger at h
    split at h
    · simp at h
    · next cs =>
      split at h
      · simp at h
      · next hne =>
        split at h
        · next n hn =>
          split at h
          · obtain ⟨h1, h2⟩ := parseDigits_some _ _ _ hn
            right
            refine ⟨cs, rfl, ⟨hne, h1⟩, ?_, ?_⟩
            · rw [← Option.some.inj h, h2]; rfl
            · rw [← Option.some.inj h]; omega
          · simp at h
        · simp at h
    · next hne hm =>
      split at h
      · next n hn =>
        split at h
        · obtain ⟨h1, h2⟩ := parseDigits_some _ _ _ hn
          left
          refine ⟨⟨fun e => hne e, h1⟩, ?_, ?_⟩
          · rw [← Option.some.inj h, h2]; rfl
          · rw [← Option.some.inj h]; omega
        · simp at h
      · simp at h
  · rintro (⟨h1, rfl, h3⟩ | ⟨t, rfl, ⟨h1, h2⟩, rfl, h3⟩)
    · exact toInteger_number s h1 (by omega)
    · rw [toInteger, if_neg h1, parseDigits_number t h2 0]
      simp only
      have : (t.foldl (fun n c => 10 * n + (c.toNat - '0'.toNat)) 0) = value t := rfl
      rw [this, if_pos (by omega)]

theorem dots_split (d rest : List Char) (h : Dots d) : splitDots [] (d ++ rest) = splitDots [] rest := by
  induction d with
  | nil => rfl
  | cons c d ih =>
    rw [List.cons_append, splitDots, if_pos (h c (by simp)), if_pos rfl]
    exact ih fun c hc => h c (by simp [hc])

theorem splitDots_run (a : List Char) (h : ∀ c ∈ a, c ≠ '.') (cur rest : List Char) :
    splitDots cur (a ++ rest) = splitDots (cur ++ a) rest := by
  induction a generalizing cur with
  | nil => simp
  | cons c a ih =>
    rw [List.cons_append, splitDots, if_neg (h c (by simp)), ih (fun c hc => h c (by simp [hc]))]
    simp

theorem isInteger_run {s : List Char} {v : Int} (h : IsInteger s v) : s ≠ [] ∧ ∀ c ∈ s, c ≠ '.' := by
  have hn : ∀ t, IsNumber t → ∀ c ∈ t, c ≠ '.' := by
    rintro t ⟨-, h⟩ c hc rfl
    have := h _ hc
    revert this
    decide
  rcases h with ⟨h, -⟩ | ⟨t, rfl, h, -⟩
  · exact ⟨h.1, hn s h⟩
  · refine ⟨by simp, ?_⟩
    intro c hc
    rcases List.mem_cons.1 hc with rfl | hc
    · decide
    · exact hn t h c hc

theorem splitDots_piece (a d rest : List Char) (ha : a ≠ []) (h : ∀ c ∈ a, c ≠ '.') (hd : Dots d) (hne : d ≠ []) :
    splitDots [] (a ++ (d ++ rest)) = a :: splitDots [] rest := by
  rw [splitDots_run a h, List.nil_append]
  cases d with
  | nil => exact absurd rfl hne
  | cons c d =>
    rw [List.cons_append, splitDots, if_pos (hd c (by simp)), if_neg ha, dots_split _ _ fun c hc => hd c (by simp [hc])]

theorem splitDots_last (a d : List Char) (ha : a ≠ []) (h : ∀ c ∈ a, c ≠ '.') (hd : Dots d) : splitDots [] (a ++ d) = [a] := by
  cases d with
  | nil => rw [splitDots_run a h, List.nil_append, splitDots, if_neg ha]
  | cons c d =>
    have := splitDots_piece a (c :: d) [] ha h hd (by simp)
    rwa [List.append_nil] at this

theorem splitDots_nil (cur s : List Char) (h : splitDots cur s = []) : Dots s := by
  induction s generalizing cur with
  | nil => intro c hc; simp at hc
  | cons c s ih =>
    rw [splitDots] at h
    split at h
    · split at h
      · intro d hd
        rcases List.mem_cons.1 hd with rfl | hd
        · assumption
        · exact ih _ h d hd
      · simp at h
    · next hc =>
      exfalso
      have : ∀ (s cur : List Char), cur ≠ [] → splitDots cur s ≠ [] := by
        intro s
        induction s with
        | nil => intro cur hc h; rw [splitDots, if_neg hc] at h; simp at h
        | cons c s ih =>
          intro cur hc h
          rw [splitDots] at h
          split at h
          · simp at h
          · exact ih _ (by simp) h
      exact this s _ (by simp) h

theorem splitDots_inside (cur s p : List Char) (ps : List (List Char)) (hcur : cur ≠ []) (h : splitDots cur s = p :: ps) :
    ∃ t r, p = cur ++ t ∧ ((s = t ∧ ps = []) ∨ (s = t ++ '.' :: r ∧ splitDots [] r = ps)) := by
  induction s generalizing cur with
  | nil =>
    rw [splitDots, if_neg hcur] at h
    simp only [List.cons.injEq] at h
    exact ⟨[], [], by simp [h.1], Or.inl ⟨rfl, h.2.symm⟩⟩
  | cons c s ih =>
    rw [splitDots] at h
    split at h
    · next hc =>
      simp only [List.cons.injEq] at h
      exact ⟨[], s, by simp [h.1], Or.inr ⟨by simp [hc], h.2⟩⟩
    · obtain ⟨t, r, h1, h2⟩ := ih _ (by simp) h
      refine ⟨c :: t, r, by simp [h1], ?_⟩
      rcases h2 with ⟨rfl, h2⟩ | ⟨rfl, h2⟩
      · exact Or.inl ⟨rfl, h2⟩
      · exact Or.inr ⟨rfl, h2⟩

/-- The first piece: leading dots, the piece, and then nothing or a dot and the rest. -/
theorem splitDots_cons (s p : List Char) (ps : List (List Char)) (h : splitDots [] s = p :: ps) :
    ∃ d r, Dots d ∧ ((s = d ++ p ∧ ps = []) ∨ (s = d ++ p ++ '.' :: r ∧ splitDots [] r = ps)) := by
  induction s with
  | nil => rw [splitDots, if_pos rfl] at h; simp at h
  | cons c s ih =>
    rw [splitDots] at h
    split at h
    · next hc =>
      rw [if_pos rfl] at h
      obtain ⟨d, r, h1, h2⟩ := ih h
      refine ⟨c :: d, r, ?_, ?_⟩
      · intro e he
        rcases List.mem_cons.1 he with rfl | he
        · exact hc
        · exact h1 e he
      · rcases h2 with ⟨rfl, h2⟩ | ⟨rfl, h2⟩
        · exact Or.inl ⟨rfl, h2⟩
        · exact Or.inr ⟨rfl, h2⟩
    · obtain ⟨t, r, h1, h2⟩ := splitDots_inside _ _ _ _ (by simp) h
      refine ⟨[], r, by intro e he; simp at he, ?_⟩
      rcases h2 with ⟨rfl, h2⟩ | ⟨rfl, h2⟩
      · exact Or.inl ⟨by simp [h1], h2⟩
      · exact Or.inr ⟨by simp [h1], h2⟩

/-- **C29, every string.**  A version is accepted exactly if it is empty or consists of three integers (separated by dots; extra dots are
ignored) of which the first is the compiler's major number and the second is at least its minor number, and equal to it for major number 0. -/
theorem C29_exactly (version : List Char) (major minor : Int) :
    isCompatibleVersion version major minor = true ↔
      version = [] ∨ ∃ y z, ThreeParts version major y z ∧ minor ≤ y ∧ (major = 0 → minor = y) := by
  by_cases hv : version = []
  · subst hv; simp [isCompatibleVersion]
  constructor
  · intro h
    right
    unfold isCompatibleVersion at h
    rw [if_neg hv] at h
    dsimp only at h
    split at h
    · simp at h
    · next hl =>
      obtain ⟨a, b, c, habc⟩ : ∃ a b c, splitDots [] version = [a, b, c] := by
        generalize splitDots [] version = l at hl
        match l, hl with
        | [a, b, c], _ => exact ⟨a, b, c, rfl⟩
        | [], h => simp at h
        | [_], h => simp at h
        | [_, _], h => simp at h
        | _ :: _ :: _ :: _ :: _, h => simp at h
      rw [habc] at h
      cases ha : toInteger a with
      | none => simp [ha] at h
      | some x =>
      cases hb : toInteger b with
      | none => simp [ha, hb] at h
      | some y =>
      cases hc : toInteger c with
      | none => simp [ha, hb, hc] at h
      | some z =>
        have hp : [a, b, c].mapM toInteger = some [x, y, z] := by simp [ha, hb, hc]
        rw [hp] at h
        simp only [List.getD_cons_zero, List.getD_cons_succ] at h
        split at h
        · simp at h
        · next hcond =>
          have hx : x = major := by omega
          subst hx
          refine ⟨y, z, ?_, by omega, by omega⟩
          obtain ⟨d0, r0, hd0, h0⟩ := splitDots_cons _ _ _ habc
          rcases h0 with ⟨-, h0⟩ | ⟨rfl, h0⟩
          · simp at h0
          obtain ⟨d1, r1, hd1, h1⟩ := splitDots_cons _ _ _ h0
          rcases h1 with ⟨-, h1⟩ | ⟨rfl, h1⟩
          · simp at h1
          obtain ⟨d2, r2, hd2, h2⟩ := splitDots_cons _ _ _ h1
          have dcons : ∀ d, Dots d → Dots ('.' :: d) := by
            intro d hd e he
            rcases List.mem_cons.1 he with rfl | he
            · rfl
            · exact hd e he
          rcases h2 with ⟨rfl, -⟩ | ⟨rfl, h2⟩
          · refine ⟨d0, a, '.' :: d1, b, '.' :: d2, c, [], by simp, hd0, dcons _ hd1, dcons _ hd2, by intro e he; simp at he, by simp,
              by simp, (toInteger_iff _ _).1 ha, (toInteger_iff _ _).1 hb, (toInteger_iff _ _).1 hc⟩
          · exact ⟨d0, a, '.' :: d1, b, '.' :: d2, c, '.' :: r2, by simp, hd0, dcons _ hd1, dcons _ hd2,
              dcons _ (splitDots_nil _ _ h2), by simp, by simp, (toInteger_iff _ _).1 ha, (toInteger_iff _ _).1 hb, (toInteger_iff _ _).1 hc⟩
  · rintro (h | ⟨y, z, ⟨d0, a, d1, b, d2, c, d3, rfl, hd0, hd1, hd2, hd3, n1, n2, ha, hb, hc⟩, h1, h2⟩)
    · exact absurd h hv
    have hs : splitDots [] (d0 ++ a ++ d1 ++ b ++ d2 ++ c ++ d3) = [a, b, c] := by
      rw [show d0 ++ a ++ d1 ++ b ++ d2 ++ c ++ d3 = d0 ++ (a ++ (d1 ++ (b ++ (d2 ++ (c ++ d3))))) by simp]
      rw [dots_split _ _ hd0, splitDots_piece _ _ _ (isInteger_run ha).1 (isInteger_run ha).2 hd1 n1,
        splitDots_piece _ _ _ (isInteger_run hb).1 (isInteger_run hb).2 hd2 n2, splitDots_last _ _ (isInteger_run hc).1 (isInteger_run hc).2 hd3]
    unfold isCompatibleVersion
    rw [if_neg hv, hs]
    simp only [List.length_cons, List.length_nil]
    rw [if_neg (by simp)]
    have hp : [a, b, c].mapM toInteger = some [major, y, z] := by
      simp [(toInteger_iff _ _).2 ha, (toInteger_iff _ _).2 hb, (toInteger_iff _ _).2 hc]
    rw [hp]
    simp only [List.getD_cons_zero, List.getD_cons_succ]
    rw [if_neg (by omega)]

/-- Versions with stray dots are accepted, words are not. -/
example : isCompatibleVersion ".1..12.0.".toList 1 7 = true ∧ isCompatibleVersion "1.x.0".toList 1 7 = false ∧
    ThreeParts ".1..12.0.".toList 1 12 0 :=
  ⟨by decide, by decide, ['.'], ['1'], ['.', '.'], ['1', '2'], ['.'], ['0'], ['.'], by decide, by simp [Dots], by simp [Dots], by simp [Dots],
    by simp [Dots], by decide, by decide, Or.inl ⟨⟨by decide, by decide⟩, by decide, by decide⟩, Or.inl ⟨⟨by decide, by decide⟩, by decide, by decide⟩,
    Or.inl ⟨⟨by decide, by decide⟩, by decide, by decide⟩⟩

end Verif.Host.Config

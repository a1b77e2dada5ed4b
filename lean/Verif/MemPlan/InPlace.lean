import Verif.MemPlan.Props
/-!
C41: in-place operators implemented as front-to-back loops.  C02 assumes that a kernel reads its operands before
it writes; the kernels (lib_tflite_micro, not in /repo) really are loops that write the output front to back while
still reading the input.  Here such kernels are modelled byte for byte, and the offsets chosen by the planner are
shown to make them correct for the last operator of an in-place chain and for size-preserving operators; for a
growing operator in the middle of a chain the property is refuted.
-/
namespace Verif.MemPlan

/-- One iteration of a front-to-back kernel: read the input bytes at the given indices, then write `len` output
bytes computed from them. -/
structure StreamStep where
  deps : List Nat
  len : Nat
  compute : List Byte → List Byte

/-- The iteration writes as many bytes as it says. -/
def StreamStep.Ok (s : StreamStep) : Prop := ∀ bs, (s.compute bs).length = s.len

/-- Execution in memory: input at `inOff`, next output byte at `outPos`. -/
def runStream (inOff : Int) : Int → List StreamStep → Mem → Mem
  | _, [], m => m
  | outPos, s :: ss, m =>
      let bs := s.deps.map fun k : Nat => m (inOff + (k : Int))
      runStream inOff (outPos + s.len) ss (m.write outPos (s.compute bs))

/-- Reference result: input in private memory. -/
def streamRef (inp : Nat → Byte) : List StreamStep → List Byte
  | [] => []
  | s :: ss => s.compute (s.deps.map inp) ++ streamRef inp ss

/-- Bytes written before each iteration never pass the bytes that it reads by more than `gap`: the iteration that
starts at output byte `j` reads input byte `k` only if `j ≤ k + gap`. -/
def StreamLag (gap : Int) : Nat → List StreamStep → Prop
  | _, [] => True
  | j, s :: ss => (∀ k ∈ s.deps, (j : Int) ≤ (k : Int) + gap) ∧ StreamLag gap (j + s.len) ss

/-- Every byte that an iteration reads is outside the output bytes written before it. -/
def StreamSafe (inOff outOff : Int) : Nat → List StreamStep → Prop
  | _, [] => True
  | j, s :: ss => (∀ k ∈ s.deps, inOff + (k : Int) < outOff ∨ outOff + j ≤ inOff + k) ∧
      StreamSafe inOff outOff (j + s.len) ss

theorem runStream_spec (inOff : Int) (ss : List StreamStep) (hok : ∀ s ∈ ss, s.Ok) (inp : Nat → Byte)
    (outOff : Int) (j : Nat) (m : Mem)
    (hlag : StreamSafe inOff outOff j ss) (n : Nat) (hdeps : ∀ s ∈ ss, ∀ k ∈ s.deps, k < n)
    (hin : ∀ k : Nat, k < n → (inOff + k < outOff ∨ outOff + j ≤ inOff + k) → m (inOff + k) = inp k) :
    (∀ a, a < outOff + j → runStream inOff (outOff + j) ss m a = m a) ∧
    (runStream inOff (outOff + j) ss m).read (outOff + j) (streamRef inp ss).length = streamRef inp ss := by
  induction ss generalizing j m with
  | nil => exact ⟨fun _ _ => rfl, rfl⟩
  | cons s ss ih =>
    have hs := hok s (by simp)
    obtain ⟨hl, hlag'⟩ := hlag
    have hbs : (s.deps.map fun k : Nat => m (inOff + (k : Int))) = s.deps.map inp := by
      apply List.map_congr_left
      intro k hk
      exact hin k (hdeps s (by simp) k hk) (hl k hk)
    simp only [runStream, streamRef]
    rw [hbs]
    have hlen := hs (s.deps.map inp)
    have hpos : outOff + (j : Int) + (s.len : Int) = outOff + ((j + s.len : Nat) : Int) := by push_cast; omega
    have := ih (fun s' h' => hok s' (by simp [h'])) (j + s.len) (m.write (outOff + j) (s.compute (s.deps.map inp)))
      hlag' (fun s' h' => hdeps s' (by simp [h'])) (by
        intro k hkn hk
        rw [Mem.write_other]
        · exact hin k hkn (by push_cast at hk; omega)
        · rw [hlen]; push_cast at hk; omega)
    rw [hpos]
    obtain ⟨h1, h2⟩ := this
    refine ⟨?_, ?_⟩
    · intro a ha
      rw [h1 a (by push_cast; omega), Mem.write_other _ _ _ _ (Or.inl ha)]
    · have split : ∀ (mm : Mem) (o : Int) (x y : Nat), mm.read o (x + y) = mm.read o x ++ mm.read (o + x) y := by
        intro mm o x y
        induction x generalizing o with
        | zero => simp [Mem.read]
        | succ x ihx =>
          rw [show x + 1 + y = (x + y) + 1 by omega]
          simp only [Mem.read, List.cons_append]
          rw [ihx (o + 1)]
          congr 2
          push_cast; congr 1; omega
      rw [List.length_append, split]
      congr 1
      · rw [hlen]
        have h3 : (runStream inOff (outOff + ((j + s.len : Nat) : Int)) ss
            (m.write (outOff + j) (s.compute (s.deps.map inp)))).read (outOff + j) s.len =
            (m.write (outOff + j) (s.compute (s.deps.map inp))).read (outOff + j) s.len := by
          apply Mem.read_congr
          intro a _ ha
          exact h1 a (by push_cast; omega)
        rw [h3]
        have := Mem.read_write_same m (outOff + j) (s.compute (s.deps.map inp))
        rw [hlen] at this
        exact this
      · rw [hlen, hpos]
        exact h2

/-! ### Gaps chosen by the planner -/

theorem align_gap {a b : Nat} : (a : Int) ≤ alignOff a ∧ alignOff (a : Int) < a + 8 ∧
    (b : Int) ≤ alignOff b := by
  unfold alignOff
  rw [Int.tdiv_eq_ediv_of_nonneg (by omega), Int.tdiv_eq_ediv_of_nonneg (by omega)]
  omega

/-- **C41, planner part.** If `w` is computed in place of `v`, either the two buffers are disjoint, or the input
lies behind the start of the output, by at least the growth minus 7 bytes; by at least the full growth if `w` is
not itself overwritten in place, and by exactly zero if the sizes are equal. -/
theorem C41_in_place_gap {f : Func} (wf : f.WF) (ip : f.InPlaceOK) {b : Bool} {p : Plan}
    (h : getAllocatedOffsets f b = some p) {v w : Nat} (hv : f.Arena v) (hs : f.InPlaceStep v w) :
    RangesDisjoint (offsetOf p.offsets v) (roundUp8 (f.raw v)) (offsetOf p.offsets w) (roundUp8 (f.raw w)) ∨
    (f.raw v ≤ f.raw w ∧
     0 ≤ offsetOf p.offsets v - offsetOf p.offsets w ∧
     (f.raw w : Int) - f.raw v - 7 ≤ offsetOf p.offsets v - offsetOf p.offsets w ∧
     ((¬ ∃ u, f.InPlaceStep w u) → (f.raw w : Int) - f.raw v ≤ offsetOf p.offsets v - offsetOf p.offsets w) ∧
     (f.raw v = f.raw w → offsetOf p.offsets v = offsetOf p.offsets w)) := by
  obtain ⟨j, inv⟩ := overlapPhase_inv wf ip b
  have ok := ovOK_of_inv wf ip inv
  obtain ⟨al, pf⟩ := planFacts ok h
  obtain ⟨r, o, hr⟩ := rootOf_exists (s := overlapPhase f b) v
  obtain ⟨r', o', hr'⟩ := rootOf_exists (s := overlapPhase f b) w
  have hw := step_arena ip hs
  have hne : v ≠ w := by rintro rfl; exact before_irrefl (step_before wf ip hs)
  by_cases hrr : r = r'
  · right
    subst hrr
    obtain ⟨q1, hq1, e1, p1⟩ := pf.placed v r o hv hr
    obtain ⟨q2, hq2, e2, p2⟩ := pf.placed w r o' hw hr'
    have hq : q1.2 = q2.2 := by
      have hnd : (al.map Prod.fst).Nodup := pf.keys.nodup_iff.2 (queueValues_nodup f _)
      have : q1 = q2 := by
        by_contra hne
        obtain ⟨i1, hi1, rfl⟩ := List.getElem_of_mem hq1
        obtain ⟨i2, hi2, rfl⟩ := List.getElem_of_mem hq2
        have hii : i1 ≠ i2 := by rintro rfl; exact hne rfl
        have := (List.nodup_iff_injective_getElem.1 hnd)
          (a₁ := ⟨i1, by simpa using hi1⟩) (a₂ := ⟨i2, by simpa using hi2⟩) (by simp [e1, e2])
        simp at this; exact hii this
      rw [this]
    have hdiff : offsetOf p.offsets v - offsetOf p.offsets w = o - o' := by omega
    -- v is a chain input
    have hvkey : (v, (r, o)) ∈ (overlapPhase f b).inOut := by
      rcases hr with ⟨_, rfl, _⟩ | hm
      · exfalso
        rcases hr' with ⟨_, h1, _⟩ | hm
        · exact hne h1
        · have h2 := chain_before wf ip (inv.keyChain _ hm)
          have h3 := chain_before wf ip (InPlaceChain.trans (.single hs) (inv.keyChain _ hm))
          exact before_irrefl h3
      · exact hm
    have hvo := inv.keyOff _ hvkey
    have hvr := inv.keyRaw _ hvkey
    simp only [chainOffset] at hvo hvr
    rcases hr' with ⟨_, hrw, rfl⟩ | hm
    · subst hrw
      have hg := @align_gap (f.raw r - f.raw v) 0
      rw [show ((f.raw r - f.raw v : Nat) : Int) = (f.raw r : Int) - f.raw v by omega] at hg
      refine ⟨hvr, ?_, ?_, ?_, ?_⟩
      · omega
      · omega
      · intro _; omega
      · intro he
        have : o = 0 := by rw [hvo, he]; simp [alignOff]
        omega
    · have hwo := inv.keyOff _ hm
      have hwr := inv.keyRaw _ hm
      simp only [chainOffset] at hwo hwr
      have hvw : f.raw v ≤ f.raw w := by
        obtain ⟨jj, hu, hov, huu, rfl⟩ := hs
        exact inv.keyStep _ hvkey jj hu
      have hg := @align_gap (f.raw r - f.raw v) (f.raw r - f.raw w)
      have hg2 := @align_gap (f.raw r - f.raw w) 0
      rw [show ((f.raw r - f.raw v : Nat) : Int) = (f.raw r : Int) - f.raw v by omega,
        show ((f.raw r - f.raw w : Nat) : Int) = (f.raw r : Int) - f.raw w by omega] at hg
      rw [show ((f.raw r - f.raw w : Nat) : Int) = (f.raw r : Int) - f.raw w by omega] at hg2
      have mono : alignOff ((f.raw r : Int) - f.raw w) ≤ alignOff ((f.raw r : Int) - f.raw v) := by
        unfold alignOff
        rw [Int.tdiv_eq_ediv_of_nonneg (by omega), Int.tdiv_eq_ediv_of_nonneg (by omega)]
        omega
      refine ⟨hvw, by omega, by omega, ?_, ?_⟩
      · intro hn
        exfalso
        apply hn
        cases inv.keyChain _ hm with
        | single h => exact ⟨_, h⟩
        | cons h _ => exact ⟨_, h⟩
      · intro he
        have : o = o' := by rw [hvo, hwo, he]
        omega
  · left
    obtain ⟨jj, hu, hov, huu, rfl⟩ := hs
    have hd := result0_definedAt f hu.1 (ip.proper jj hu.1 hov).2.2
    have hlv : f.LiveAt v jj := by
      rcases wf.dominated jj v hu with ha | ⟨i, hi, hl⟩
      · exact Or.inl ⟨ha, Or.inr ⟨jj, le_refl _, hu⟩⟩
      · exact Or.inr ⟨i, hi, by omega, Or.inr ⟨jj, le_refl _, hu⟩⟩
    have hlw : f.LiveAt (f.result0 jj) jj := Or.inr ⟨jj, hd, le_refl _, Or.inl rfl⟩
    exact planFacts_disjoint ok pf hv hw hr hr' hrr (live_meets wf hv hw hlv hlw)


theorem streamSafe_of_lag {inOff outOff gap : Int} (hg : gap ≤ inOff - outOff) (j : Nat)
    (ss : List StreamStep) (h : StreamLag gap j ss) : StreamSafe inOff outOff j ss := by
  induction ss generalizing j with
  | nil => trivial
  | cons s ss ih =>
    refine ⟨fun k hk => Or.inr ?_, ih _ h.2⟩
    have := h.1 k hk
    omega

theorem streamSafe_of_disjoint {inOff outOff : Int} {n m : Nat} (j : Nat) (ss : List StreamStep)
    (hd : RangesDisjoint inOff n outOff m) (hdeps : ∀ s ∈ ss, ∀ k ∈ s.deps, k < n)
    (hlen : j + (ss.map StreamStep.len).sum ≤ m) : StreamSafe inOff outOff j ss := by
  induction ss generalizing j with
  | nil => trivial
  | cons s ss ih =>
    simp only [List.map_cons, List.sum_cons] at hlen
    refine ⟨fun k hk => ?_, ih (j + s.len) (fun s' h' => hdeps s' (by simp [h'])) (by omega)⟩
    have := hdeps s (by simp) k hk
    unfold RangesDisjoint at hd
    omega

theorem streamRef_length (inp : Nat → Byte) (ss : List StreamStep) (hok : ∀ s ∈ ss, s.Ok) :
    (streamRef inp ss).length = (ss.map StreamStep.len).sum := by
  induction ss with
  | nil => rfl
  | cons s ss ih =>
    simp only [streamRef, List.length_append, List.map_cons, List.sum_cons]
    rw [hok s (by simp), ih fun s' h' => hok s' (by simp [h'])]

/-- Condition on `w` under which a growing in-place operator is covered: it is the last of its in-place chain, or
it does not change the size. -/
def LastOrSameSize (f : Func) (v w : Nat) : Prop := (¬ ∃ u, f.InPlaceStep w u) ∨ f.raw v = f.raw w

/-- **C41 (partial).** Let `w` be computed in place of `v` by a front-to-back kernel whose iteration starting at
output byte `j` only reads input bytes `k ≥ j - growth` (element-wise operators: growth 0; padding operators: at most
`growth` padding bytes precede an input byte).  If `w` is the end of its in-place chain or has the size of `v`, then at
the planned offsets the kernel produces in the arena what it would produce from a private copy of its input.
Missing for the full property: growing operators in the middle of a chain, for which it is false
(`C41_mid_chain_refuted`). -/
theorem C41_front_to_back_in_place_partial {f : Func} (wf : f.WF) (ip : f.InPlaceOK) {b : Bool} {p : Plan}
    (h : getAllocatedOffsets f b = some p) {v w : Nat} (hv : f.Arena v) (hs : f.InPlaceStep v w)
    (hlast : LastOrSameSize f v w)
    (ss : List StreamStep) (hok : ∀ s ∈ ss, s.Ok) (hdeps : ∀ s ∈ ss, ∀ k ∈ s.deps, k < f.raw v)
    (hlen : (ss.map StreamStep.len).sum = f.raw w)
    (hlag : StreamLag ((f.raw w : Int) - f.raw v) 0 ss)
    (inp : Nat → Byte) (m : Mem) (hin : ∀ k, k < f.raw v → m (offsetOf p.offsets v + (k : Int)) = inp k) :
    (runStream (offsetOf p.offsets v) (offsetOf p.offsets w) ss m).read (offsetOf p.offsets w) (f.raw w)
      = streamRef inp ss := by
  have hsafe : StreamSafe (offsetOf p.offsets v) (offsetOf p.offsets w) 0 ss := by
    rcases C41_in_place_gap wf ip h hv hs with hd | ⟨h1, h2, h3, h4, h5⟩
    · refine streamSafe_of_disjoint (n := f.raw v) (m := f.raw w) 0 ss ?_ hdeps (by omega)
      have := roundUp8_ge (f.raw v)
      have := roundUp8_ge (f.raw w)
      unfold RangesDisjoint at *; omega
    · rcases hlast with hl | he
      · exact streamSafe_of_lag (h4 hl) 0 ss hlag
      · refine streamSafe_of_lag ?_ 0 ss hlag
        have := h5 he
        omega
  have := (runStream_spec (offsetOf p.offsets v) ss hok inp (offsetOf p.offsets w) 0 m hsafe (f.raw v) hdeps
    (fun k hk _ => hin k hk)).2
  rw [streamRef_length inp ss hok, hlen] at this
  simpa using this

/-! ### Concrete kernels and witnesses -/

/-- Kernel of a padding operator: each output byte is a fill byte or a copied input byte. -/
def padSteps (fill : Byte) (cells : List (Option Nat)) : List StreamStep :=
  cells.map fun c => match c with
    | none => ⟨[], 1, fun _ => [fill]⟩
    | some k => ⟨[k], 1, fun bs => [bs.headD 0]⟩

/-- A 4x4x3 image, zero-padded by one row at the top and one column at the left (75 bytes), then padded from 3 to 4
channels (100 bytes), both in place. -/
def padChain : Func :=
  { argSizes := [48]
    ops := [⟨false, false, true, [0], [75]⟩, ⟨false, false, true, [1], [100]⟩, ⟨false, true, false, [2], []⟩] }

theorem padChain_wf : padChain.WF := Func.wf_of_check (by decide)
theorem padChain_inPlace : padChain.InPlaceOK := Func.inPlaceOK_of_check (by decide)

/-- The spatial pad of `padChain`, one output byte per iteration. -/
def padChainCells : List (Option Nat) :=
  (List.range 75).map fun j =>
    let r := j / 15
    let c := (j % 15) / 3
    let ch := j % 3
    if r = 0 ∨ c = 0 then none else some ((r - 1) * 12 + (c - 1) * 3 + ch)

/-- Decision procedure for `StreamLag`, used by the witness. -/
def streamLagCheck (gap : Int) : Nat → List StreamStep → Bool
  | _, [] => true
  | j, s :: ss => (s.deps.all fun k => decide ((j : Int) ≤ (k : Int) + gap)) && streamLagCheck gap (j + s.len) ss

theorem streamLag_of_check {gap : Int} (ss : List StreamStep) (j : Nat)
    (h : streamLagCheck gap j ss = true) : StreamLag gap j ss := by
  induction ss generalizing j with
  | nil => trivial
  | cons s ss ih =>
    simp only [streamLagCheck, Bool.and_eq_true, List.all_eq_true, decide_eq_true_eq] at h
    exact ⟨h.1, ih _ h.2⟩

/-- **C41 refuted for a growing operator in the middle of a chain.** In `padChain` the input is planned 24 bytes behind
the padded image although 27 padding bytes precede its last byte: a front-to-back pad overwrites bytes that it has not
read yet, and the padded image in the arena is wrong. -/
theorem C41_mid_chain_refuted :
    ∃ (f : Func) (p : Plan) (v w : Nat) (ss : List StreamStep) (inp : Nat → Byte) (m : Mem),
      f.WF ∧ f.InPlaceOK ∧ getAllocatedOffsets f true = some p ∧ f.Arena v ∧ f.InPlaceStep v w ∧
      (∀ s ∈ ss, s.Ok) ∧ (∀ s ∈ ss, ∀ k ∈ s.deps, k < f.raw v) ∧ (ss.map StreamStep.len).sum = f.raw w ∧
      StreamLag ((f.raw w : Int) - f.raw v) 0 ss ∧
      (∀ k, k < f.raw v → m (offsetOf p.offsets v + (k : Int)) = inp k) ∧
      (runStream (offsetOf p.offsets v) (offsetOf p.offsets w) ss m).read (offsetOf p.offsets w) (f.raw w)
        ≠ streamRef inp ss := by
  refine ⟨padChain, ⟨[56, 32, 0], 112, 3⟩, 0, 1, padSteps 0 padChainCells, fun k => UInt8.ofNat (k + 1),
    fun a => UInt8.ofNat (a - 56 + 1).toNat, padChain_wf, padChain_inPlace, by decide +kernel, ⟨by unfold Func.IsValue; decide, by decide⟩, ?_, ?_, ?_, ?_, ?_, ?_, ?_⟩
  rotate_left
  · intro s hs
    obtain ⟨c, _, rfl⟩ := List.mem_map.1 hs
    cases c with
    | none => intro bs; rfl
    | some k => intro bs; rfl
  · have : ∀ s ∈ padSteps 0 padChainCells, ∀ k ∈ s.deps, k < padChain.raw 0 := by
      intro s hs
      obtain ⟨c, hc, rfl⟩ := List.mem_map.1 hs
      have hall : ∀ c ∈ padChainCells, ∀ k, c = some k → k < 48 := by decide +kernel
      cases c with
      | none => intro k hk; simp at hk
      | some k =>
        intro k' hk'
        simp only [List.mem_singleton] at hk'
        subst hk'
        exact hall _ hc _ rfl
    exact this
  · decide +kernel
  rotate_left 3
  · refine ⟨0, ⟨by decide, by decide⟩, by decide, ?_, by decide⟩
    intro q hq
    have h1 := hq.1
    have h2 := hq.2
    have : ∀ q, q < 3 → 0 ∈ (padChain.op q).operands → q = 0 := by decide
    exact this q h1 h2
  · exact streamLag_of_check _ 0 (by decide +kernel)
  · intro k _
    show UInt8.ofNat ((56 + (k : Int)) - 56 + 1).toNat = _
    congr 1
    omega
  · decide +kernel

/-! ### Lookup tables -/

/-- A lookup operator whose activation input (0) has a second reader and whose 256-byte table (1) is loaded from
flash: `xc.ld_weights`, `xc.lookup(x, lut)`, a second use of `x`, and the return. -/
def lutFunc : Func :=
  { argSizes := [512]
    ops := [⟨false, false, false, [], [256]⟩, ⟨false, false, true, [0, 1], [512]⟩,
            ⟨false, false, false, [0, 2], [16]⟩, ⟨false, true, false, [3], []⟩] }

/-- Front-to-back lookup kernel in the arena: reads the table while writing the output. -/
def runLookup (inOff lutOff : Int) : Int → Nat → Mem → Mem
  | _, 0, m => m
  | outPos, n + 1, m =>
      let x := m (inOff)
      runLookup (inOff + 1) lutOff (outPos + 1) n (fun a => if a = outPos then m (lutOff + x.toNat) else m a)

/-- **C02, in-place assumption refuted for lookup tables.** The plan attached to `lutFunc` puts the table inside the
lookup's own output buffer, so that a lookup kernel that reads its table while writing its output computes a wrong
result although the table and the input were intact when it started. -/
theorem C02_lookup_table_overwritten :
    lutFunc.WF ∧ lutFunc.InPlaceOK ∧
    ∃ a, planMemory lutFunc = some a ∧
      (offsetOf a.offsets 2 ≤ offsetOf a.offsets 1 ∧
        offsetOf a.offsets 1 + 256 ≤ offsetOf a.offsets 2 + 512) ∧
      ∃ m : Mem, ∃ i : Nat, i < 512 ∧
        runLookup (offsetOf a.offsets 0) (offsetOf a.offsets 1) (offsetOf a.offsets 2) 512 m
            (offsetOf a.offsets 2 + i)
          ≠ m (offsetOf a.offsets 1 + (m (offsetOf a.offsets 0 + i)).toNat) := by
  refine ⟨Func.wf_of_check (by decide), Func.inPlaceOK_of_check (by decide), ?_⟩
  refine ⟨⟨[512, 256, 0, 1024], 1280, 2⟩, by decide +kernel, by decide, ?_⟩
  -- input: 1 at index 256 and 0 elsewhere; table: entry 0 is 7, entry 1 is 9
  refine ⟨fun a => if a = 512 + 256 then 1 else if a = 256 then 7 else if a = 257 then 9 else 0, 257, by decide, ?_⟩
  decide +kernel

/-- The hypotheses of `C41_front_to_back_in_place_partial` are met by the second pad of `padChain` (3 to 4 channels). -/
example : LastOrSameSize padChain 1 2 ∧ padChain.InPlaceStep 1 2 ∧
    StreamLag ((padChain.raw 2 : Int) - padChain.raw 1) 0
      (padSteps 0 ((List.range 100).map fun j => if j % 4 = 3 then none else some (j / 4 * 3 + j % 4))) := by
  refine ⟨Or.inl ?_, ?_, streamLag_of_check _ 0 (by decide +kernel)⟩
  · rintro ⟨u, j, hu, ho, _⟩
    have : ∀ q, q < 3 → 2 ∈ (padChain.op q).operands → (padChain.op q).overlappable = false := by decide
    have := this j hu.1 hu.2
    rw [this] at ho; simp at ho
  · refine ⟨1, ⟨by decide, by decide⟩, by decide, ?_, by decide⟩
    intro q hq
    have : ∀ q, q < 3 → 1 ∈ (padChain.op q).operands → q = 1 := by decide
    exact this q hq.1 hq.2

end Verif.MemPlan

import Verif.Threads.Exec
import Verif.Conv.LowerProps
import Verif.Conv.Transpose
import Verif.Conv.MaxPool
/-!
C63, C64: kernels run by several threads, for every interleaving.  The regions come from the compiler
(`getImageRegionThreadSplits`), the machine is that of `Threads/Exec.lean`.
-/
namespace Verif.Threads

theorem interleaving_exists {α : Type} (ps : List (List α)) : ∃ s, Interleaving ps s := by
  induction hn : (ps.map List.length).sum using Nat.strong_induction_on generalizing ps with
  | _ n ih =>
    by_cases h : ∀ p ∈ ps, p = []
    · exact ⟨[], .done h⟩
    · simp only [not_forall] at h
      obtain ⟨p, hp, hne⟩ := h
      obtain ⟨t, ht, htp⟩ := List.getElem_of_mem hp
      cases p with
      | nil => exact absurd rfl hne
      | cons a rest =>
        have hget : ps[t]? = some (a :: rest) := by rw [List.getElem?_eq_getElem ht, htp]
        have hlt : ((ps.set t rest).map List.length).sum < n := by
          have := set_countP_sum (fun _ => true) ps t a rest hget
          simp only [List.countP_true] at this
          rw [← hn]
          simp only [if_true] at this
          have e : ∀ l : List (List α), (l.map fun p => p.length).sum = (l.map List.length).sum := fun _ => rfl
          have e1 := e ps
          have e2 := e (ps.set t rest)
          omega
        obtain ⟨s, hs⟩ := ih _ hlt (ps.set t rest) rfl
        exact ⟨_, .step hget hs⟩

/-- **C63, any kernel.** Let the threads do the regions the compiler computed, each its own elements in any order and in jobs
of any size, and let each job compute the right values from what it put into its section of the scratch buffer.  Then for
*every* interleaving of the threads' steps the output holds, in every element of the image, the right value, each element is written
exactly once, nothing outside the image is written, and the scratch buffer of `B` bytes per region is not left. -/
theorem C63_any_schedule (cts : Nat → Nat → List (Nat × Nat)) (hcalc : CalcContract cts) (n h w d : Nat) (hn : 1 ≤ n)
    (hH : 1 ≤ h) (hW : 1 ≤ w) (B : Nat) (val : Elem → Int) :
    ∃ rs, getImageRegionThreadSplits cts n ⟨h, w, d, 0, 0, 1, 1⟩ = some rs ∧ rs.length ≤ n ∧
      ∀ ws, List.Forall₂ (DoesRegion ⟨h, w, d, 0, 0, 1, 1⟩) rs ws → (∀ w ∈ ws, ∀ j ∈ w, j.Computes B val) →
        ∀ s, Interleaving (ws.map (program B)) s → ∀ m : TMem,
          (∀ y x c, (runSchedule B s m).out (y, x, c) = if y < h ∧ x < w ∧ c < d then val (y, x, c) else m.out (y, x, c)) ∧
          (∀ y x c, writes s (y, x, c) = if y < h ∧ x < w ∧ c < d then 1 else 0) ∧
          ∀ i ∈ scratchWritten B s, i < B * rs.length := by
  obtain ⟨rs, h1, h2, _, h4⟩ := C07_regions_partition_image cts hcalc n h w d hn hH hW
  refine ⟨rs, h1, h2, ?_⟩
  intro ws hws hval s hs m
  have hcount : ∀ y x c, (ws.map fun w => (elems w).count (y, x, c)).sum = if y < h ∧ x < w ∧ c < d then 1 else 0 := by
    intro y x c
    rw [count_regions _ rs ws hws, if_pos (by simp [Params.InPhase, Nat.mod_one]), h4]
  refine ⟨fun y x c => ?_, fun y x c => ?_, ?_⟩
  · have hc := hcount y x c
    have := (threads_compute ws hval s hs m (y, x, c) (by rw [hc]; split <;> omega)).1
    rw [this]
    by_cases hin : y < h ∧ x < w ∧ c < d
    · rw [if_pos hin] at hc
      rw [if_pos hin, if_pos]
      by_contra hne
      have : (ws.map fun w => (elems w).count (y, x, c)).sum = 0 := by
        rw [List.sum_eq_zero]
        intro k hk
        obtain ⟨w', hw', rfl⟩ := List.mem_map.1 hk
        exact List.count_eq_zero_of_not_mem fun hm => hne ⟨w', hw', hm⟩
      omega
    · rw [if_neg hin] at hc
      rw [if_neg hin, if_neg]
      rintro ⟨w', hw', hm⟩
      have := List.le_sum_of_mem (List.mem_map_of_mem (f := fun w => (elems w).count (y, x, c)) hw')
      have hp : 0 < (elems w').count (y, x, c) := List.count_pos_iff.2 hm
      omega
  · have hc := hcount y x c
    rw [(threads_compute ws hval s hs m (y, x, c) (by rw [hc]; split <;> omega)).2, hc]
  · have := scratch_inside ws hval s hs
    rwa [hws.length_eq]

/-- **C64, one phase** (the phases of a transposed convolution), where C08 holds: elements of the phase get their
values, all others keep what the partial output holds. -/
theorem C64_phase_partial (cts : Nat → Nat → List (Nat × Nat)) (hcalc : CalcContract cts) (n : Nat) (p : Params) (hn : 1 ≤ n)
    (hH : 1 ≤ p.height) (hW : 1 ≤ p.width) (hsh : p.subH < p.strideH) (hsw : p.subW < p.strideW)
    (hh : heightChosen n p = true → p.strideH ≤ p.height ∧ (p.height % 2 = 1 ∨ p.height % p.strideH ≤ p.subH))
    (hw : heightChosen n p = false → p.strideW ≤ p.width ∧ (p.width % 2 = 1 ∨ p.width % p.strideW ≤ p.subW))
    (B : Nat) (val : Elem → Int) :
    ∃ rs, getImageRegionThreadSplits cts n p = some rs ∧ rs.length ≤ n ∧
      ∀ ws, List.Forall₂ (DoesRegion p) rs ws → (∀ w ∈ ws, ∀ j ∈ w, j.Computes B val) →
        ∀ s, Interleaving (ws.map (program B)) s → ∀ m : TMem,
          (∀ y x c, p.Inside y x c → (runSchedule B s m).out (y, x, c) = if p.InPhase y x then val (y, x, c) else m.out (y, x, c)) ∧
          (∀ y x c, writes s (y, x, c) = if p.InPhase y x ∧ p.Inside y x c then 1 else 0) ∧
          ∀ i ∈ scratchWritten B s, i < B * rs.length := by
  obtain ⟨rs, h1, h2, _, h4⟩ := C08_strided_regions_cover_phase_partial cts hcalc n p hn hH hW hsh hsw hh hw
  refine ⟨rs, h1, h2, ?_⟩
  intro ws hws hval s hs m
  have hcount : ∀ y x c, (ws.map fun w => (elems w).count (y, x, c)).sum = if p.InPhase y x ∧ p.Inside y x c then 1 else 0 := by
    intro y x c
    rw [count_regions _ rs ws hws]
    by_cases hp : p.InPhase y x
    · rw [if_pos hp, h4 y x c hp]
      by_cases hi : p.Inside y x c
      · rw [if_pos hi, if_pos ⟨hp, hi⟩]
      · rw [if_neg hi, if_neg fun h => hi h.2]
    · rw [if_neg hp, if_neg fun h => hp h.1]
  refine ⟨fun y x c hin => ?_, fun y x c => ?_, ?_⟩
  · have hc := hcount y x c
    have := (threads_compute ws hval s hs m (y, x, c) (by rw [hc]; split <;> omega)).1
    rw [this]
    by_cases hp : p.InPhase y x
    · rw [if_pos ⟨hp, hin⟩] at hc
      rw [if_pos hp, if_pos]
      by_contra hne
      have : (ws.map fun w => (elems w).count (y, x, c)).sum = 0 := by
        rw [List.sum_eq_zero]
        intro k hk
        obtain ⟨w', hw', rfl⟩ := List.mem_map.1 hk
        exact List.count_eq_zero_of_not_mem fun hm => hne ⟨w', hw', hm⟩
      omega
    · rw [if_neg fun h => hp h.1] at hc
      rw [if_neg hp, if_neg]
      rintro ⟨w', hw', hm⟩
      have := List.le_sum_of_mem (List.mem_map_of_mem (f := fun w => (elems w).count (y, x, c)) hw')
      have hp : 0 < (elems w').count (y, x, c) := List.count_pos_iff.2 hm
      omega
  · have hc := hcount y x c
    rw [(threads_compute ws hval s hs m (y, x, c) (by rw [hc]; split <;> omega)).2, hc]
  · have := scratch_inside ws hval s hs
    rwa [hws.length_eq]

/-- The elements of a region, row by row. -/
def regionElems (p : Params) (r : Region) : List Elem :=
  (((List.range' r.row r.rows).flatMap fun y => (List.range' r.col r.cols).flatMap fun x =>
    (List.range' r.chan r.chans).map fun c => (y, x, c))).filter fun e => decide (p.InPhase e.1 e.2.1)

theorem regionElems_spec (p : Params) (r : Region) :
    (regionElems p r).Nodup ∧ ∀ y x c, (y, x, c) ∈ regionElems p r ↔ r.Has y x c ∧ p.InPhase y x := by
  constructor
  · apply List.Nodup.filter
    rw [List.nodup_flatMap]
    refine ⟨fun y _ => ?_, ?_⟩
    · rw [List.nodup_flatMap]
      refine ⟨fun x _ => ?_, ?_⟩
      · exact List.Nodup.map (fun a b h => by simpa using h) List.nodup_range'
      · refine List.Pairwise.imp ?_ (List.nodup_range' (s := r.col) (n := r.cols))
        intro a b hab
        simp only [Function.onFun, List.Disjoint]
        intro e h1 h2
        obtain ⟨c, _, rfl⟩ := List.mem_map.1 h1
        obtain ⟨c', _, h⟩ := List.mem_map.1 h2
        exact hab (by simpa using (congrArg (fun e : Elem => e.2.1) h).symm)
    · refine List.Pairwise.imp ?_ (List.nodup_range' (s := r.row) (n := r.rows))
      intro a b hab
      simp only [Function.onFun, List.Disjoint]
      intro e h1 h2
      obtain ⟨x, _, h1⟩ := List.mem_flatMap.1 h1
      obtain ⟨c, _, rfl⟩ := List.mem_map.1 h1
      obtain ⟨x', _, h2⟩ := List.mem_flatMap.1 h2
      obtain ⟨c', _, h⟩ := List.mem_map.1 h2
      exact hab (by simpa using (congrArg (fun e : Elem => e.1) h).symm)
  · intro y x c
    simp only [regionElems, List.mem_filter, List.mem_flatMap, List.mem_map, List.mem_range'_1, decide_eq_true_eq]
    constructor
    · rintro ⟨⟨y', hy, x', hx, c', hc, h⟩, hp⟩
      obtain ⟨rfl, rfl, rfl⟩ : y' = y ∧ x' = x ∧ c' = c := by simpa using h
      exact ⟨⟨hy.1, hy.2, hx.1, hx.2, hc.1, hc.2⟩, hp⟩
    · rintro ⟨⟨a1, a2, a3, a4, a5, a6⟩, hp⟩
      exact ⟨⟨y, ⟨a1, a2⟩, x, ⟨a3, a4⟩, c, ⟨a5, a6⟩, rfl⟩, hp⟩

end Verif.Threads

namespace Verif.Conv
open Verif.Tensor Verif.Threads Verif.Quant Verif.Move

/-- ReplaceConv2D.cpp 102–114, 141–146, 201–233: an XC convolution with its threads.  `scratchBytes` is what lib_nn reports for
the kernel (parameter `B`); the scratch tensor has that many bytes for each thread. -/
structure XCConv where
  conv : Lowered
  regions : List Region
  scratchBytes : Nat
  threadCount : Nat
  scratchTensor : Nat

/-- ReplaceConv2D.cpp 49–233 for convolutions that do not come from a transposed one. -/
def lowerThreaded (cfg : Cfg) (lib : Lib) (cts : Nat → Nat → List (Nat × Nat)) (threads : Nat) (B : Lowered → Nat) (f : Fake) :
    Option XCConv :=
  match lower cfg lib f with
  | none => none
  | some l =>
    match getImageRegionThreadSplits cts threads ⟨f.oh, f.ow, f.oc, 0, 0, 1, 1⟩ with
    | none => none
    | some rs =>
      some { conv := l, regions := rs, scratchBytes := B l, threadCount := rs.length, scratchTensor := B l * rs.length }

/-- Contract of the kernels that copy: for one output element, the patch is copied to the scratch section element by
element, and the output transform is applied to the dot product of the filter with what is then in the section. -/
def Lowered.job (lib : Lib) (l : Lowered) (x : Tensor) (e : Elem) : Job :=
  let kw := l.mb.kw
  let nc := l.mb.nc
  { patch := fun k => l.patch x 0 e.1 e.2.1 e.2.2 (k / nc / kw) (k / nc % kw) (k % nc)
    emits := [(e, fun u =>
      let acc := l.mb.dot e.2.2 fun a b c => u ((a * kw + b) * nc + c)
      clamp (-128) 127 (lib.round (match l.ot with | .group => lib.group l.mb e.2.2 acc | .channelwise => lib.chan l.mb e.2.2 acc)))] }

theorem dot_congr (m : MB) (o : Nat) (p q : Nat → Nat → Nat → Int)
    (h : ∀ a < m.kh, ∀ b < m.kw, ∀ c < m.nc, p a b c = q a b c) : m.dot o p = m.dot o q := by
  unfold MB.dot
  refine Finset.sum_congr rfl fun a ha => Finset.sum_congr rfl fun b hb => Finset.sum_congr rfl fun c hc => ?_
  rw [h a (Finset.mem_range.1 ha) b (Finset.mem_range.1 hb) c (Finset.mem_range.1 hc)]

theorem Lowered.job_computes (lib : Lib) (l : Lowered) (x : Tensor) (B : Nat) (hB : l.mb.kh * l.mb.kw * l.mb.nc ≤ B) (e : Elem) :
    (l.job lib x e).Computes B fun e => l.run lib x [0, e.1, e.2.1, e.2.2] := by
  intro ef hef
  obtain rfl : ef = _ := by simpa [Lowered.job] using hef
  constructor
  · intro u v huv
    dsimp only
    have : (l.mb.dot e.2.2 fun a b c => u ((a * l.mb.kw + b) * l.mb.nc + c)) =
        l.mb.dot e.2.2 fun a b c => v ((a * l.mb.kw + b) * l.mb.nc + c) := by
      apply dot_congr
      intro a ha b hb c hc
      exact huv _ (lt_of_lt_of_le (addr_lt ha hb hc) hB)
    rw [this]
  · dsimp only
    have : (l.mb.dot e.2.2 fun a b c => (l.job lib x e).patch ((a * l.mb.kw + b) * l.mb.nc + c)) =
        l.mb.dot e.2.2 fun a b c => l.patch x 0 e.1 e.2.1 e.2.2 a b c := by
      apply dot_congr
      intro a _ b hb c hc
      simp only [Lowered.job]
      have h1 : ((a * l.mb.kw + b) * l.mb.nc + c) / l.mb.nc = a * l.mb.kw + b := by
        rw [Nat.add_comm, Nat.add_mul_div_right _ _ (by omega), Nat.div_eq_of_lt hc]; omega
      have h2 : ((a * l.mb.kw + b) * l.mb.nc + c) % l.mb.nc = c := by
        rw [Nat.add_comm, Nat.add_mul_mod_self_right, Nat.mod_eq_of_lt hc]
      have h3 : (a * l.mb.kw + b) / l.mb.kw = a := by
        rw [Nat.add_comm, Nat.add_mul_div_right _ _ (by omega), Nat.div_eq_of_lt hb]; omega
      have h4 : (a * l.mb.kw + b) % l.mb.kw = b := by
        rw [Nat.add_comm, Nat.add_mul_mod_self_right, Nat.mod_eq_of_lt hb]
      rw [h1, h2, h3, h4]
    rw [this]
    rfl

/-- What the threads of an XC convolution may do: thread `t` the elements of region `t`, in any order and grouping. -/
def XCConv.Works (lib : Lib) (k : XCConv) (p : Params) (x : Tensor) (ws : List (List Job)) : Prop :=
  List.Forall₂ (DoesRegion p) k.regions ws ∧
  ∀ w ∈ ws, ∀ j ∈ w, j.Computes k.scratchBytes fun e => k.conv.run lib x [0, e.1, e.2.1, e.2.2]

/-- **C63, convolutions.** An 8-bit convolution that is replaced gives, run with any number of threads and for every interleaving of
their steps, in every element of the (single) output image the TensorFlow Lite value up to one step; every element is
written exactly once and the scratch tensor is large enough.  (Conditions as in C51: no fused activation, or RELU at zero point -128; default error threshold.) -/
theorem C63_conv_any_schedule (cfg : Cfg) (lib : Lib) (hlib : lib.Faithful) (hthr : cfg.threshold < 1) (r : ℚ → ℤ) (hr : Nearest r)
    (cts : Nat → Nat → List (Nat × Nat)) (hcalc : CalcContract cts) (threads : Nat) (hn : 1 ≤ threads) (B : Lowered → Nat)
    (f : Fake) (p : Padding) (ok : f.OK p) (hoh : 1 ≤ f.oh) (how : 1 ≤ f.ow)
    (hrange : ∀ o < f.oc, ∀ o' < f.oc, f.filter.qp.scale o ≤ cfg.factor * f.filter.qp.scale o')
    (hact : f.act = .none ∨ f.act = .relu ∧ f.zpo = -128) (k : XCConv) (h : lowerThreaded cfg lib cts threads B f = some k)
    (x : Tensor) (hx : ∀ i, InShape [1, f.ih, f.iw, f.ic] i → -128 ≤ x i ∧ x i ≤ 127) (hz : -128 ≤ f.zpi ∧ f.zpi ≤ 127)
    (ws : List (List Job)) (hws : k.Works lib ⟨f.oh, f.ow, f.oc, 0, 0, 1, 1⟩ x ws) (s : List (Nat × TStep))
    (hs : Interleaving (ws.map (program k.scratchBytes)) s) (m : TMem) :
    k.threadCount ≤ threads ∧ k.threadCount = k.regions.length ∧
    (∀ y xx o, y < f.oh → xx < f.ow → o < f.oc →
      |(runSchedule k.scratchBytes s m).out (y, xx, o) - f.ref r p x [0, y, xx, o]| ≤ 1 ∧ writes s (y, xx, o) = 1) ∧
    ∀ i ∈ scratchWritten k.scratchBytes s, i < k.scratchTensor := by
  unfold lowerThreaded at h
  cases hl : lower cfg lib f with
  | none => rw [hl] at h; cases h
  | some l =>
    rw [hl] at h
    dsimp only at h
    obtain ⟨rs, e1, e2, e3⟩ := C63_any_schedule cts hcalc threads f.oh f.ow f.oc hn hoh how (B l)
      (fun e => l.run lib x [0, e.1, e.2.1, e.2.2])
    rw [e1] at h
    obtain rfl := Option.some.inj h
    obtain ⟨g1, g2, g3⟩ := e3 ws hws.1 hws.2 s hs m
    refine ⟨e2, rfl, fun y xx o hy hxx ho => ?_, g3⟩
    rw [g1 y xx o, g2 y xx o, if_pos ⟨hy, hxx, ho⟩, if_pos ⟨hy, hxx, ho⟩]
    exact ⟨(C51_conv_lowered_partial cfg lib hlib r hr f p ok hrange hact l hl 1 x hx hz [0, y, xx, o]
      ⟨by decide, hy, hxx, ho, trivial⟩).2 hthr, rfl⟩

/-- Such works and schedules exist, whatever the regions: element by element with the copying kernel, if lib_nn's scratch holds the patch. -/
theorem C63_works_exist (lib : Lib) (k : XCConv) (p : Params) (x : Tensor)
    (hB : k.conv.mb.kh * k.conv.mb.kw * k.conv.mb.nc ≤ k.scratchBytes) :
    ∃ ws, k.Works lib p x ws ∧ ∃ s, Interleaving (ws.map (program k.scratchBytes)) s := by
  refine ⟨k.regions.map fun r => (regionElems p r).map (k.conv.job lib x), ⟨?_, ?_⟩, interleaving_exists _⟩
  · rw [List.forall₂_map_right_iff, List.forall₂_same]
    intro r _
    have : elems ((regionElems p r).map (k.conv.job lib x)) = regionElems p r := by
      unfold elems
      rw [List.flatMap_map]
      simp [Lowered.job]
    unfold DoesRegion
    rw [this]
    exact regionElems_spec p r
  · intro w hw j hj
    obtain ⟨r, _, rfl⟩ := List.mem_map.1 hw
    obtain ⟨e, _, rfl⟩ := List.mem_map.1 hj
    exact Lowered.job_computes lib k.conv x k.scratchBytes hB e

/-- **C63 refuted for batches**: nothing is ever written behind the first image, so the rest of a batch keeps what was in the arena. -/
theorem C63_batch_refuted (cfg : Cfg) (lib : Lib) (cts : Nat → Nat → List (Nat × Nat)) (hcalc : CalcContract cts) (threads : Nat)
    (hn : 1 ≤ threads) (B : Lowered → Nat) (f : Fake) (hoh : 1 ≤ f.oh) (how : 1 ≤ f.ow) (k : XCConv)
    (h : lowerThreaded cfg lib cts threads B f = some k) (x : Tensor) (ws : List (List Job))
    (hws : k.Works lib ⟨f.oh, f.ow, f.oc, 0, 0, 1, 1⟩ x ws) (s : List (Nat × TStep))
    (hs : Interleaving (ws.map (program k.scratchBytes)) s) :
    ∀ y xx o, 0 < writes s (y, xx, o) → (y * f.ow + xx) * f.oc + o < f.oh * f.ow * f.oc := by
  unfold lowerThreaded at h
  cases hl : lower cfg lib f with
  | none => rw [hl] at h; cases h
  | some l =>
    rw [hl] at h
    dsimp only at h
    obtain ⟨rs, e1, e2, e3⟩ := C63_any_schedule cts hcalc threads f.oh f.ow f.oc hn hoh how (B l)
      (fun e => l.run lib x [0, e.1, e.2.1, e.2.2])
    rw [e1] at h
    obtain rfl := Option.some.inj h
    obtain ⟨_, g2, _⟩ := e3 ws hws.1 hws.2 s hs ⟨fun _ => 0, fun _ => 0⟩
    intro y xx o hpos
    rw [g2 y xx o] at hpos
    by_cases hc : y < f.oh ∧ xx < f.ow ∧ o < f.oc
    · exact addr_lt hc.1 hc.2.1 hc.2.2
    · rw [if_neg hc] at hpos; omega

/-! ### Transposed convolutions -/

/-- Running the chain of convolutions made for a transposed one, each with threads: for every operator of the chain the
threads do the regions the compiler computes for its phase, in any interleaving; the next operator starts when all have
finished, and finds the scratch buffer in any state. -/
inductive ThreadedChain (cts : Nat → Nat → List (Nat × Nat)) (threads oh ow oc B : Nat) (val : FakeConv → Elem → Int) :
    List FakeConv → TMem → TMem → Prop where
  | nil (m : TMem) : ThreadedChain cts threads oh ow oc B val [] m m
  | cons {fc : FakeConv} {rest : List FakeConv} {rs : List Region} {ws : List (List Job)} {s : List (Nat × TStep)} {m m1 m2 : TMem} :
      getImageRegionThreadSplits cts threads ⟨oh, ow, oc, fc.subH, fc.subW, fc.strideH, fc.strideW⟩ = some rs →
      List.Forall₂ (DoesRegion ⟨oh, ow, oc, fc.subH, fc.subW, fc.strideH, fc.strideW⟩) rs ws →
      (∀ w ∈ ws, ∀ j ∈ w, j.Computes B (val fc)) → Interleaving (ws.map (program B)) s → m1.out = (runSchedule B s m).out →
      ThreadedChain cts threads oh ow oc B val rest m1 m2 → ThreadedChain cts threads oh ow oc B val (fc :: rest) m m2

/-- The value a convolution of the chain computes for an element of its phase. -/
def FakeConv.value (rq : Requant) (zpi : Int) (elemBytes w c : Nat) (mem : List Int) (fc : FakeConv) (e : Elem) : Int :=
  fc.run rq zpi elemBytes w c mem (fun _ _ _ => 0) e.1 e.2.1 e.2.2

theorem threadedChain_run (rq : Requant) (zpi : Int) (eb w c : Nat) (mem : List Int)
    (cts : Nat → Nat → List (Nat × Nat)) (hcalc : CalcContract cts) (threads oh ow oc B : Nat) (hn : 1 ≤ threads) (hoh : 1 ≤ oh)
    (how : 1 ≤ ow) (l : List FakeConv)
    (hl : ∀ fc ∈ l, fc.subH < fc.strideH ∧ fc.subW < fc.strideW ∧ fc.strideH ≤ oh ∧ (oh % 2 = 1 ∨ oh % fc.strideH = 0) ∧
      fc.strideW ≤ ow ∧ (ow % 2 = 1 ∨ ow % fc.strideW = 0)) (m m' : TMem)
    (h : ThreadedChain cts threads oh ow oc B (fun fc => fc.value rq zpi eb w c mem) l m m') (y x o : Nat) (hy : y < oh) (hx : x < ow) (ho : o < oc)
    (init : Nat → Nat → Nat → Int) (hi : init y x o = m.out (y, x, o)) :
    m'.out (y, x, o) = runChain rq zpi eb w c mem l init y x o := by
  induction h generalizing init with
  | nil m => exact hi.symm
  | @cons fc rest rs ws s m m1 m2 h1 h2 h3 h4 h5 _ ih =>
    obtain ⟨a1, a2, a3, a4, a5, a6⟩ := hl fc (by simp)
    obtain ⟨rs', e1, _, e3⟩ := C64_phase_partial cts hcalc threads ⟨oh, ow, oc, fc.subH, fc.subW, fc.strideH, fc.strideW⟩ hn hoh how a1 a2
      (fun _ => ⟨a3, a4.imp id fun h => by dsimp only; omega⟩) (fun _ => ⟨a5, a6.imp id fun h => by dsimp only; omega⟩) B
      (fc.value rq zpi eb w c mem)
    rw [h1] at e1
    obtain rfl := Option.some.inj e1
    have g := (e3 ws h2 h3 s h4 m).1 y x o ⟨hy, hx, ho⟩
    rw [← h5] at g
    have := ih (fun fc hfc => hl fc (by simp [hfc])) (fc.run rq zpi eb w c mem init) ?_
    · exact this
    · rw [g]
      have hph : Params.InPhase ⟨oh, ow, oc, fc.subH, fc.subW, fc.strideH, fc.strideW⟩ y x ↔
          (y % fc.strideH = fc.subH ∧ x % fc.strideW = fc.subW) := by
        unfold Params.InPhase
        dsimp only
        rw [Nat.mod_eq_of_lt a1, Nat.mod_eq_of_lt a2]
      by_cases hc : y % fc.strideH = fc.subH ∧ x % fc.strideW = fc.subW
      · rw [if_pos (hph.2 hc)]
        unfold FakeConv.value FakeConv.run
        rw [if_pos hc, if_pos hc]
      · rw [if_neg fun h => hc (hph.1 h)]
        unfold FakeConv.run
        rw [if_neg hc]
        exact hi

/-- **C64, transposed convolutions.** Where the output height and width are odd or multiples of the stride (and at least the stride), the
chain made for a `VALID` transposed convolution of one image, run with threads in any interleaving, leaves the value of the transposed
convolution in every output element. -/
theorem C64_transposed_partial (rq : Requant) (zpi : Int) (i16 : Bool) (h w : Nat) (op : ConvOp)
    (hv : op.padding = .valid) (hh : 1 ≤ h) (hw : 1 ≤ w) (hsh : 0 < op.sh) (hsw : 0 < op.sw)
    (ps : List ConvParams) (hps : Reordered op.filter op.sh op.sw ps) (x : Tensor) (oh ow : Nat)
    (hoh : oh ≤ (h - 1) * op.sh + max op.filter.kh op.sh) (how : ow ≤ (w - 1) * op.sw + max op.filter.kw op.sw)
    (hoh1 : op.sh ≤ oh ∧ (oh % 2 = 1 ∨ oh % op.sh = 0)) (how1 : op.sw ≤ ow ∧ (ow % 2 = 1 ∨ ow % op.sw = 0))
    (cts : Nat → Nat → List (Nat × Nat)) (hcalc : CalcContract cts) (threads B : Nat) (hn : 1 ≤ threads) (m m' : TMem)
    (hrun : ThreadedChain cts threads oh ow op.filter.o B (fun fc => fc.value rq zpi (if i16 then 2 else 1) (w + 2 * hPad ps) op.filter.c
      (padForTranspose zpi h w op.filter.c ps x)) (fakeConvs i16 w op ps) m m') (y xx o : Nat)
    (hidx : InShape [1, oh, ow, op.filter.o] [0, y, xx, o]) :
    m'.out (y, xx, o) = tconv rq zpi h w oh ow op x [0, y, xx, o] := by
  rw [← (C40_transpose_conv_chain rq zpi i16 h w op hv hh hw hsh hsw ps hps x (fun a b c => m.out (a, b, c)) oh ow hoh how y xx o hidx).1]
  obtain ⟨_, hy, hx, ho, _⟩ := hidx
  refine threadedChain_run rq zpi _ _ _ _ cts hcalc threads oh ow op.filter.o B hn (by omega) (by omega) _ ?_ m m' hrun y xx o hy hx ho _ rfl
  intro fc hfc
  obtain ⟨p, hp, rfl⟩ := List.mem_map.1 hfc
  obtain ⟨r1, r2⟩ := hps.range p hp
  exact ⟨r1, r2, hoh1.1, hoh1.2, how1.1, how1.2⟩

/-- Such runs exist. -/
theorem threadedChain_exists (cts : Nat → Nat → List (Nat × Nat)) (hcalc : CalcContract cts) (threads oh ow oc : Nat) (hn : 1 ≤ threads)
    (hoh : 1 ≤ oh) (how : 1 ≤ ow) (val : FakeConv → Elem → Int) (l : List FakeConv)
    (hl : ∀ fc ∈ l, fc.subH < fc.strideH ∧ fc.subW < fc.strideW ∧ fc.strideH ≤ oh ∧ (oh % 2 = 1 ∨ oh % fc.strideH = 0) ∧
      fc.strideW ≤ ow ∧ (ow % 2 = 1 ∨ ow % fc.strideW = 0)) (m : TMem) : ∃ m', ThreadedChain cts threads oh ow oc 0 val l m m' := by
  induction l generalizing m with
  | nil => exact ⟨m, .nil m⟩
  | cons fc rest ih =>
    obtain ⟨a1, a2, a3, a4, a5, a6⟩ := hl fc (by simp)
    obtain ⟨rs, e1, _, _⟩ := C64_phase_partial cts hcalc threads ⟨oh, ow, oc, fc.subH, fc.subW, fc.strideH, fc.strideW⟩ hn hoh how a1 a2
      (fun _ => ⟨a3, a4.imp id fun h => by dsimp only; omega⟩) (fun _ => ⟨a5, a6.imp id fun h => by dsimp only; omega⟩) 0 (val fc)
    let p : Params := ⟨oh, ow, oc, fc.subH, fc.subW, fc.strideH, fc.strideW⟩
    let ws : List (List Job) := rs.map fun r => (regionElems p r).map fun e => ⟨fun _ => 0, [(e, fun _ => val fc e)]⟩
    obtain ⟨s, hs⟩ := interleaving_exists (ws.map (program 0))
    obtain ⟨m2, hm2⟩ := ih (fun fc hfc => hl fc (by simp [hfc])) (runSchedule 0 s m)
    refine ⟨m2, .cons e1 ?_ ?_ hs rfl hm2⟩
    · rw [List.forall₂_map_right_iff, List.forall₂_same]
      intro r _
      have : elems ((regionElems p r).map fun e => (⟨fun _ => 0, [(e, fun _ => val fc e)]⟩ : Job)) = regionElems p r := by
        unfold elems
        rw [List.flatMap_map]
        simp
      unfold DoesRegion
      rw [this]
      exact regionElems_spec p r
    · intro w hw j hj
      obtain ⟨r, _, rfl⟩ := List.mem_map.1 hw
      obtain ⟨e, _, rfl⟩ := List.mem_map.1 hj
      intro ef hef
      obtain rfl : ef = _ := by simpa using hef
      exact ⟨fun _ _ _ => rfl, rfl⟩

/-- **C64 refuted for other output sizes**: stride 3, an 8 by 8 output, one thread.  Whatever the schedule, row 6 of phase 0 is never written. -/
theorem C64_rows_lost (ws : List (List Job)) (s : List (Nat × TStep)) (B : Nat)
    (hws : List.Forall₂ (DoesRegion ⟨8, 8, 4, 0, 0, 3, 3⟩) [⟨0, 0, 0, 6, 8, 4⟩] ws) (hs : Interleaving (ws.map (program B)) s) :
    getImageRegionThreadSplits (fun _ d => if d = 0 then [] else [(0, d)]) 1 ⟨8, 8, 4, 0, 0, 3, 3⟩ = some [⟨0, 0, 0, 6, 8, 4⟩] ∧
    writes s (6, 0, 0) = 0 := by
  refine ⟨by decide, ?_⟩
  rw [writes_eq ws s hs, count_regions _ _ _ hws]
  decide

/-- The example of C51 with 4 threads: three regions (one row each). -/
theorem C63_example : ∃ k, lowerThreaded defaultCfg exactLib (fun _ d => if d = 0 then [] else [(0, d)]) 4 (fun _ => 64) exFake = some k ∧
    k.regions = [⟨0, 0, 0, 3, 1, 4⟩, ⟨0, 1, 0, 3, 1, 4⟩, ⟨0, 2, 0, 3, 1, 4⟩] ∧ k.scratchTensor = 192 ∧ k.conv.mb.kh * k.conv.mb.kw * k.conv.mb.nc ≤ k.scratchBytes := by
  obtain ⟨l, hl, _⟩ := C51_example
  have hm : l.mb = mulsBias defaultCfg exFake := by
    unfold lower at hl
    rw [show getPads exFake = some ⟨1, 1, 1, 1⟩ by decide] at hl
    simp only [show toBePadded ⟨1, 1, 1, 1⟩ = true by decide, show kernelType exFake true = some .paddedIndirect by decide] at hl
    rw [if_neg (by decide)] at hl
    cases hc : chooseOT defaultCfg exactLib (mulsBias defaultCfg exFake) with
    | none => rw [hc] at hl; cases hl
    | some ot => rw [hc] at hl; rw [← Option.some.inj hl]
  unfold lowerThreaded
  rw [hl]
  refine ⟨_, rfl, rfl, rfl, ?_⟩
  show l.mb.kh * l.mb.kw * l.mb.nc ≤ 64
  rw [hm]
  decide

/-- **C63, maximum pooling** (`VALID`, one image): for every interleaving every output element is the largest element of its window. -/
theorem C63_pool_any_schedule (cts : Nat → Nat → List (Nat × Nat)) (hcalc : CalcContract cts) (threads : Nat) (hn : 1 ≤ threads)
    (p : MaxPool) (ok : p.OK) (hv : p.padding = .valid) (hoh : 1 ≤ p.oh) (how : 1 ≤ p.ow) (k : XCMaxPool)
    (hk : lowerMaxPool cts threads p = some k) (t : Tensor) (mem : Nat → Int)
    (hmem : ∀ iy ix c, iy < p.h → ix < p.w → c < p.depth → mem ((iy * p.w + ix) * p.depth + c) = t [0, iy, ix, c])
    (val : Elem → Int) (hval : ∀ y x c, y < p.oh → x < p.ow → c < p.depth → k.Gives mem y x c (val (y, x, c)))
    (B : Nat) (ws : List (List Job)) (hws : List.Forall₂ (DoesRegion ⟨p.oh, p.ow, p.depth, 0, 0, 1, 1⟩) k.regions ws)
    (hjobs : ∀ w ∈ ws, ∀ j ∈ w, j.Computes B val) (s : List (Nat × TStep)) (hs : Interleaving (ws.map (program B)) s) (m : TMem)
    (y x c : Nat) (hy : y < p.oh) (hx : x < p.ow) (hc : c < p.depth) :
    IsMaxPool p t 0 y x c ((runSchedule B s m).out (y, x, c)) ∧ writes s (y, x, c) = 1 := by
  obtain ⟨k', e1, _, e3⟩ := C55_maxpool_valid_partial cts hcalc threads hn p ok hv
  rw [hk] at e1
  obtain rfl := Option.some.inj e1
  obtain ⟨rs, r1, _, r3⟩ := C63_any_schedule cts hcalc threads p.oh p.ow p.depth hn hoh how B val
  have hrs : k.regions = rs := by
    unfold lowerMaxPool at hk
    rw [r1] at hk
    rw [← Option.some.inj hk]
  rw [hrs] at hws
  obtain ⟨g1, g2, _⟩ := r3 ws hws hjobs s hs m
  rw [g1 y x c, g2 y x c, if_pos ⟨hy, hx, hc⟩, if_pos ⟨hy, hx, hc⟩]
  exact ⟨((e3 y x c hy hx hc).2 t mem _ hmem).1 (hval y x c hy hx hc), rfl⟩

/-- The hypotheses of C64 convolutions can be met: a 3x4 kernel with strides 2 and 3 on a 2x2 input has a 5x7 output;
there are runs with 4 threads. -/
theorem C64_example : ∃ m', ThreadedChain (fun _ d => if d = 0 then [] else [(0, d)]) 4 5 7 exTV.filter.o 0 (fun _ _ => 0)
    (fakeConvs false 2 exTV (refReorder exTV.filter exTV.sh exTV.sw)) ⟨fun _ => 0, fun _ => 0⟩ m' ∧
    (2 - 1) * exTV.sh + max exTV.filter.kh exTV.sh = 5 ∧ (2 - 1) * exTV.sw + max exTV.filter.kw exTV.sw = 7 := by
  obtain ⟨m', hm'⟩ := threadedChain_exists (fun _ d => if d = 0 then [] else [(0, d)]) C55_example.2.2.1 4 5 7 exTV.filter.o (by decide) (by decide)
    (by decide) (fun _ _ => 0) (fakeConvs false 2 exTV (refReorder exTV.filter exTV.sh exTV.sw)) (by decide) ⟨fun _ => 0, fun _ => 0⟩
  exact ⟨m', hm', by decide, by decide⟩

end Verif.Conv

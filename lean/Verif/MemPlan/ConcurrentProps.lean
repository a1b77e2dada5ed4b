import Verif.MemPlan.Concurrent
import Verif.Conv.Threaded
/-!
C102: a planned model run in its arena, with threads and uninitialised scratch tensors.
-/
namespace Verif.MemPlan.Conc
open Verif.Threads (Interleaving interleaving_exists Elem Region Params coverage getImageRegionThreadSplits CalcContract regionElems regionElems_spec)

theorem planValid {f : Func} (wf : f.WF) (ip : f.InPlaceOK) {b : Bool} {p : Plan} (h : getAllocatedOffsets f b = some p) :
    PlanValid f p.offsets := by
  apply planValid_of wf
  intro v w t hv hw hne hlv hlw h1 h2
  exact C05_sharing_only_along_in_place_chains wf ip h hv hw hne hlv hlw
    (fun hc => h1 (chain_before wf ip hc)) (fun hc => h2 (chain_before wf ip hc))

/-- **C102** In the planned arena (with or without in-place operators), with arbitrary initial content and scratch tensors nobody initialises,
whatever the interleaving of the threads of each operator: every operator, and the final return, finds exactly the data of the
reference execution. -/
theorem C102_any_schedule {f : Func} (wf : f.WF) (ip : f.InPlaceOK) {b : Bool} {p : Plan} (h : getAllocatedOffsets f b = some p)
    (k : Kernels) (hk : Kernels.Fit f k) (impl : Nat → Impl) (ok : ImplOK f k impl) (inputs : List (List Byte))
    (hin : inputs.map List.length = f.argSizes) (m : Mem) (c : Env) (tr : List (List (List Byte)))
    (hrun : Run f k impl p.offsets f.ops 0 (loadInputs p.offsets inputs m) c tr) :
    tr = refRun f k (isScratch f impl) f.ops 0 (inputEnv inputs) := by
  have pv := planValid wf ip h
  apply run_sim wf ip (separates_of_plan wf ip h) pv (samePlace_of_plan wf ip h) hk ok hrun (by simp)
  rintro v _ (ha | ⟨i, _, hl⟩) _
  · have hlen : inputs.length = f.argSizes.length := by rw [← hin]; simp
    have hv : v < inputs.length := by rw [hlen]; exact ha
    have hraw : ∀ i, ∀ hi : i < inputs.length, f.raw i = (inputs[i]).length := by
      intro i hi
      obtain ⟨h1, h2⟩ := fit_getElem hin i hi
      simp only [Func.raw]
      rw [decl_arg f h1, h2]
    unfold arenaOperand
    rw [(arg_arena f ha).2]
    simp only [Bool.false_eq_true, if_false, loadInputs, inputEnv]
    have := writeResults_same p.offsets 0 inputs m (by
      intro a b ha hb hab
      simp only [Nat.zero_add]
      rw [← hraw a ha, ← hraw b hb]
      exact pv.args a b (by unfold Func.IsArg; omega) (by unfold Func.IsArg; omega) hab) v hv
    rw [hraw v hv]
    simp only [Nat.zero_add] at this
    rw [this]
    simp [List.getD_eq_getElem?_getD, hv]
  · omega

/-- Every model can be run to its end: whatever the state, an interleaving exists for each operator. -/
theorem C102_runs_exist (f : Func) (k : Kernels) (impl : Nat → Impl) (offs : List Int) (os : List Op) (j : Nat) (m : Mem) (c : Env) :
    ∃ tr, Run f k impl offs os j m c tr := by
  induction os generalizing j m c with
  | nil => exact ⟨[], .nil j m c⟩
  | cons o os ih =>
    cases hc : (o.isConst || o.isTerm) with
    | true => obtain ⟨tr, h⟩ := ih (j + 1) m _; exact ⟨_, .const hc h⟩
    | false =>
      cases hi : impl j with
      | skip => obtain ⟨tr, h⟩ := ih (j + 1) m c; exact ⟨_, .skip hc hi h⟩
      | whole => obtain ⟨tr, h⟩ := ih (j + 1) _ c; exact ⟨_, .whole hc hi h⟩
      | blocks ps =>
        obtain ⟨s, hs⟩ := interleaving_exists ps
        obtain ⟨tr, h⟩ := ih (j + 1) _ c
        exact ⟨_, .blocks hc hi hs h⟩
      | threads sc B ps =>
        obtain ⟨s, hs⟩ := interleaving_exists ps
        obtain ⟨tr, h⟩ := ih (j + 1) _ c
        exact ⟨_, .threads hc hi hs h⟩

/-- Without scratch tensors the reference is that of C02. -/
theorem refRun_eq_refTrace (f : Func) (k : Kernels) (scr : Nat → Bool) (h : ∀ v, scr v = false) (os : List Op) (j : Nat) (e : Env) :
    refRun f k scr os j e = refTrace f k os j e := by
  induction os generalizing j e with
  | nil => rfl
  | cons o os ih =>
    have : dataOperands scr o = o.operands := by
      unfold dataOperands
      exact List.filter_eq_self.2 (fun v _ => by simp [h v])
    simp only [refRun, refTrace, this, ih]

/-! ### Threads that do the compiler's regions -/

/-- Place of an element in a tensor of `w` columns and `d` channels. -/
def addr (w d : Nat) (e : Elem) : Nat := (e.1 * w + e.2.1) * d + e.2.2

/-- The element at a place. -/
def elemAt (w d p : Nat) : Elem := (p / d / w, p / d % w, p % d)

/-- A piece of work of a thread: fill the section with a patch of the operands, then compute elements from it (as in C63). -/
structure Job where
  patch : Nat → List (List Byte) → Byte
  emits : List (Elem × (List (List Byte) → List Byte → Byte))

def Job.steps (B w d : Nat) (j : Job) : List Step :=
  (List.range B).map (fun k => .put k fun ins _ => j.patch k ins) ++ j.emits.map fun ef => .emit 0 (addr w d ef.1) ef.2

def program (B w d : Nat) (l : List Job) : List Step := l.flatMap (Job.steps B w d)

def elems (l : List Job) : List Elem := l.flatMap fun j => j.emits.map (·.1)

/-- The job computes the values `val` of its elements from its patch. -/
def Job.Computes (B : Nat) (val : List (List Byte) → Elem → Byte) (j : Job) : Prop :=
  ∀ ef ∈ j.emits, ∀ ins, ef.2 ins ((List.range B).map fun k => j.patch k ins) = val ins ef.1

/-- The thread does the elements of its region. -/
def DoesRegion (r : Region) (l : List Job) : Prop := ∀ y x c, (y, x, c) ∈ elems l ↔ r.Has y x c

/-- The kernel that computes a tensor of `h` rows, `w` columns and `d` channels of bytes. -/
def imageKernel (h w d : Nat) (val : List (List Byte) → Elem → Byte) (ins : List (List Byte)) : List (List Byte) :=
  [(List.range (h * w * d)).map fun p => val ins (elemAt w d p)]

theorem addr_elemAt (w d p : Nat) : addr w d (elemAt w d p) = p := by
  unfold addr elemAt
  rw [Nat.div_add_mod', Nat.div_add_mod']

theorem elemAt_addr {w d : Nat} {e : Elem} (hx : e.2.1 < w) (hc : e.2.2 < d) : elemAt w d (addr w d e) = e := by
  obtain ⟨y, x, c⟩ := e
  dsimp only at hx hc
  unfold addr elemAt
  dsimp only
  have h1 : ((y * w + x) * d + c) / d = y * w + x := by
    rw [Nat.add_comm, Nat.add_mul_div_right _ _ (by omega), Nat.div_eq_of_lt hc]; omega
  have h2 : ((y * w + x) * d + c) % d = c := by
    rw [Nat.add_comm, Nat.add_mul_mod_self_right, Nat.mod_eq_of_lt hc]
  have h3 : (y * w + x) / w = y := by
    rw [Nat.add_comm, Nat.add_mul_div_right _ _ (by omega), Nat.div_eq_of_lt hx]; omega
  have h4 : (y * w + x) % w = x := by
    rw [Nat.add_comm, Nat.add_mul_mod_self_right, Nat.mod_eq_of_lt hx]
  rw [h1, h2, h3, h4]

/-- The section after some steps. -/
def soloSec (ins : List (List Byte)) : List Step → List Byte → List Byte
  | [], sec => sec
  | .put k g :: q, sec => soloSec ins q (sec.set k (g ins sec))
  | .emit _ _ _ :: q, sec => soloSec ins q sec

theorem soloValue_append (ins : List (List Byte)) (i p : Nat) (a b : List Step) (sec : List Byte) (cur : Byte) :
    soloValue ins i p (a ++ b) sec cur = soloValue ins i p b (soloSec ins a sec) (soloValue ins i p a sec cur) := by
  induction a generalizing sec cur with
  | nil => rfl
  | cons st a ih => cases st <;> simp only [List.cons_append, soloValue, soloSec, ih]

theorem soloSec_append (ins : List (List Byte)) (a b : List Step) (sec : List Byte) :
    soloSec ins (a ++ b) sec = soloSec ins b (soloSec ins a sec) := by
  induction a generalizing sec with
  | nil => rfl
  | cons st a ih => cases st <;> simp only [List.cons_append, soloSec, ih]

theorem soloSec_length (ins : List (List Byte)) (a : List Step) (sec : List Byte) : (soloSec ins a sec).length = sec.length := by
  induction a generalizing sec with
  | nil => rfl
  | cons st a ih =>
    cases st with
    | put k g => simp only [soloSec]; rw [ih, List.length_set]
    | emit _ _ _ => simp only [soloSec]; rw [ih]

theorem solo_puts (ins : List (List Byte)) (i p : Nat) (pt : Nat → List (List Byte) → Byte) (n : Nat) (sec : List Byte) (cur : Byte) :
    soloValue ins i p ((List.range n).map fun k => Step.put k fun ins _ => pt k ins) sec cur = cur ∧
    ∀ q : Nat, (soloSec ins ((List.range n).map fun k => Step.put k fun ins _ => pt k ins) sec)[q]? =
      if q < n ∧ q < sec.length then some (pt q ins) else sec[q]? := by
  induction n with
  | zero => simp [soloValue, soloSec]
  | succ n ih =>
    rw [List.range_succ, List.map_append]
    constructor
    · rw [soloValue_append]
      simp only [List.map_cons, List.map_nil, soloValue]
      exact ih.1
    · intro q
      rw [soloSec_append]
      simp only [List.map_cons, List.map_nil, soloSec]
      rw [List.getElem?_set, soloSec_length, ih.2 q]
      by_cases h1 : n = q
      · subst h1
        by_cases h2 : n < sec.length
        · simp [h2]
        · simp [h2, List.getElem?_eq_none (Nat.not_lt.1 h2)]
      · rw [if_neg h1]
        by_cases h2 : q < n
        · have : q < n + 1 := by omega
          simp [h2, this]
        · have : ¬ q < n + 1 := by omega
          simp [h2, this]

theorem solo_emits (ins : List (List Byte)) (w d p : Nat) (val : List (List Byte) → Elem → Byte) (l : List (Elem × (List (List Byte) → List Byte → Byte)))
    (sec : List Byte) (hv : ∀ ef ∈ l, ef.2 ins sec = val ins ef.1) (hin : ∀ ef ∈ l, ef.1.2.1 < w ∧ ef.1.2.2 < d) (cur : Byte) :
    soloSec ins (l.map fun ef => Step.emit 0 (addr w d ef.1) ef.2) sec = sec ∧
    soloValue ins 0 p (l.map fun ef => Step.emit 0 (addr w d ef.1) ef.2) sec cur =
      if elemAt w d p ∈ l.map (·.1) then val ins (elemAt w d p) else cur := by
  induction l generalizing cur with
  | nil => simp [soloSec, soloValue]
  | cons ef l ih =>
    obtain ⟨i1, i2⟩ := ih (fun x hx => hv x (List.mem_cons_of_mem _ hx)) (fun x hx => hin x (List.mem_cons_of_mem _ hx))
      (if 0 = 0 ∧ addr w d ef.1 = p then ef.2 ins sec else cur)
    constructor
    · simpa only [List.map_cons, soloSec] using i1
    · rw [List.map_cons, List.map_cons]
      show soloValue ins 0 p (l.map fun ef => Step.emit 0 (addr w d ef.1) ef.2) sec
        (if 0 = 0 ∧ addr w d ef.1 = p then ef.2 ins sec else cur) = _
      rw [i2]
      by_cases hm : elemAt w d p ∈ l.map (·.1)
      · rw [if_pos hm, if_pos (List.mem_cons_of_mem _ hm)]
      · rw [if_neg hm]
        by_cases he : addr w d ef.1 = p
        · have hee : elemAt w d p = ef.1 := by
            rw [← he]; exact elemAt_addr (hin ef (List.mem_cons_self)).1 (hin ef (List.mem_cons_self)).2
          rw [if_pos ⟨rfl, he⟩, if_pos (by rw [hee]; exact List.mem_cons_self), hv ef (List.mem_cons_self), hee]
        · have hne : elemAt w d p ≠ ef.1 := by
            intro hc
            apply he
            rw [← hc, addr_elemAt]
          rw [if_neg (by rintro ⟨_, h⟩; exact he h), if_neg]
          rw [List.mem_cons]
          rintro (h | h)
          · exact hne h
          · exact hm h

theorem solo_program (ins : List (List Byte)) (B w d p : Nat) (val : List (List Byte) → Elem → Byte) (l : List Job)
    (hv : ∀ j ∈ l, j.Computes B val) (hin : ∀ e ∈ elems l, e.2.1 < w ∧ e.2.2 < d) (sec : List Byte) (hsec : sec.length = B) (cur : Byte) :
    soloValue ins 0 p (program B w d l) sec cur = if elemAt w d p ∈ elems l then val ins (elemAt w d p) else cur := by
  induction l generalizing sec cur with
  | nil => simp [program, elems, soloValue]
  | cons j l ih =>
    have hsecj : soloSec ins ((List.range B).map fun k => Step.put k fun ins _ => j.patch k ins) sec =
        (List.range B).map fun k => j.patch k ins := by
      apply List.ext_getElem?
      intro q
      rw [(solo_puts ins 0 p j.patch B sec cur).2 q, hsec]
      by_cases hq : q < B
      · simp [hq]
      · simp [hq, List.getElem?_eq_none (show sec.length ≤ q by omega)]
    have hem := solo_emits ins w d p val j.emits ((List.range B).map fun k => j.patch k ins)
      (fun ef hef => hv j (List.mem_cons_self) ef hef ins)
      (fun ef hef => hin ef.1 (by unfold elems; rw [List.flatMap_cons]; exact List.mem_append_left _ (List.mem_map_of_mem hef))) cur
    have hpr : program B w d (j :: l) = j.steps B w d ++ program B w d l := by unfold program; rw [List.flatMap_cons]
    have hel : elems (j :: l) = j.emits.map (·.1) ++ elems l := by unfold elems; rw [List.flatMap_cons]
    rw [hpr, hel, soloValue_append, ih (fun x hx => hv x (List.mem_cons_of_mem _ hx))
      (fun e he => hin e (by rw [hel]; exact List.mem_append_right _ he)) _ (by rw [soloSec_length]; exact hsec)]
    unfold Job.steps
    rw [soloValue_append, (solo_puts ins 0 p j.patch B sec cur).1, hsecj, hem.2]
    by_cases h1 : elemAt w d p ∈ elems l
    · rw [if_pos h1, if_pos (List.mem_append_right _ h1)]
    · rw [if_neg h1]
      by_cases h2 : elemAt w d p ∈ j.emits.map (·.1)
      · rw [if_pos h2, if_pos (List.mem_append_left _ h2)]
      · rw [if_neg h2, if_neg (by rw [List.mem_append]; rintro (h | h) <;> contradiction)]

theorem forall2_mem {rs : List Region} {ws : List (List Job)} (h : List.Forall₂ DoesRegion rs ws) {l : List Job} (hl : l ∈ ws) :
    ∃ r ∈ rs, DoesRegion r l := by
  induction h with
  | nil => simp at hl
  | @cons r l' rs ws hrl _ ih =>
    rcases List.mem_cons.1 hl with h | h
    · exact ⟨r, List.mem_cons_self, h ▸ hrl⟩
    · obtain ⟨r', a, b⟩ := ih h; exact ⟨r', List.mem_cons_of_mem _ a, b⟩

theorem one_region {rs : List Region} {ws : List (List Job)} (h : List.Forall₂ DoesRegion rs ws) (y x c : Nat) (hcov : coverage rs y x c = 1) :
    ∃ (t : Nat) (l : List Job), ws[t]? = some l ∧ (y, x, c) ∈ elems l ∧
      ∀ (t' : Nat) (l' : List Job), t' ≠ t → ws[t']? = some l' → (y, x, c) ∉ elems l' := by
  induction h with
  | nil => simp [coverage] at hcov
  | @cons r l rs ws hrl hrest ih =>
    unfold coverage at hcov ih
    rw [List.countP_cons] at hcov
    by_cases hr : r.Has y x c
    · rw [if_pos (by simpa using hr)] at hcov
      refine ⟨0, l, rfl, (hrl _ _ _).2 hr, ?_⟩
      intro t' l' hne hl' hm
      cases t' with
      | zero => exact absurd rfl hne
      | succ t' =>
        rw [List.getElem?_cons_succ] at hl'
        have hz : List.countP (fun r => decide (r.Has y x c)) rs = 0 := by omega
        rw [List.countP_eq_zero] at hz
        obtain ⟨r', hr', hd'⟩ := forall2_mem hrest (List.mem_of_getElem? hl')
        exact hz r' hr' (by simpa using (hd' _ _ _).1 hm)
    · rw [if_neg (by simpa using hr)] at hcov
      obtain ⟨t, l0, a1, a2, a3⟩ := ih (by omega)
      refine ⟨t + 1, l0, by simpa using a1, a2, ?_⟩
      intro t' l' hne hl'
      cases t' with
      | zero =>
        have : l = l' := by simpa using hl'
        subst this
        exact fun hm => hr ((hrl _ _ _).1 hm)
      | succ t' => exact a3 t' l' (by omega) (by simpa using hl')

/-- **C102, threads of the compiler.**  If the threads do the regions the compiler computes for an image, each the elements of its region in jobs
of any size and order, every job computing its elements from the patch it puts into its own section, then the programs
implement the kernel in the sense of `C102_any_schedule`. -/
theorem C102_region_threads (cts : Nat → Nat → List (Nat × Nat)) (hcalc : CalcContract cts) (n h w d : Nat) (hn : 1 ≤ n)
    (hH : 1 ≤ h) (hW : 1 ≤ w) (B arity : Nat) (val : List (List Byte) → Elem → Byte) :
    ∃ rs, getImageRegionThreadSplits cts n ⟨h, w, d, 0, 0, 1, 1⟩ = some rs ∧
      ∀ ws, List.Forall₂ DoesRegion rs ws → (∀ l ∈ ws, ∀ j ∈ l, j.Computes B val) →
        Implements arity (imageKernel h w d val) [h * w * d] B (ws.map (program B w d)) := by
  obtain ⟨rs, h1, _, _, h4⟩ := Threads.C07_regions_partition_image cts hcalc n h w d hn hH hW
  refine ⟨rs, h1, fun ws hws hval => ?_⟩
  have hinside : ∀ l ∈ ws, ∀ e ∈ elems l, e.1 < h ∧ e.2.1 < w ∧ e.2.2 < d := by
    intro l hl e he
    obtain ⟨r, hr, hrl⟩ : ∃ r ∈ rs, DoesRegion r l := by
      exact forall2_mem hws hl
    have hh := (hrl e.1 e.2.1 e.2.2).1 he
    have hcov := h4 e.1 e.2.1 e.2.2
    by_contra hc
    rw [if_neg hc] at hcov
    unfold coverage at hcov
    rw [List.countP_eq_zero] at hcov
    exact hcov r hr (by simpa using hh)
  constructor
  · intro q hq st hst
    obtain ⟨l, hl, rfl⟩ := List.mem_map.1 hq
    unfold program at hst
    obtain ⟨j, hj, hst⟩ := List.mem_flatMap.1 hst
    unfold Job.steps at hst
    rcases List.mem_append.1 hst with hst | hst
    · obtain ⟨k, hk, rfl⟩ := List.mem_map.1 hst
      exact List.mem_range.1 hk
    · obtain ⟨ef, hef, rfl⟩ := List.mem_map.1 hst
      have he : ef.1 ∈ elems l := by
        unfold elems
        exact List.mem_flatMap.2 ⟨j, hj, List.mem_map_of_mem hef⟩
      obtain ⟨a1, a2, a3⟩ := hinside l hl _ he
      exact ⟨_, rfl, Conv.addr_lt a1 a2 a3⟩
  · intro ins i out p b _ hi hp
    have hi0 : i = 0 := by
      have := (List.getElem?_eq_some_iff.1 hi).1
      simp only [imageKernel, List.length_singleton] at this
      omega
    subst hi0
    obtain rfl : _ = out := by simpa [imageKernel] using hi
    have hpl : p < h * w * d := by
      have := (List.getElem?_eq_some_iff.1 hp).1
      simpa using this
    have hb : val ins (elemAt w d p) = b := by
      rw [List.getElem?_map, List.getElem?_range hpl] at hp
      simpa using hp
    -- the element at `p` lies in the image, so in exactly one region
    have hwd : 0 < w * d := by
      rcases Nat.eq_zero_or_pos d with h0 | h0
      · subst h0; simp at hpl
      · exact Nat.mul_pos (by omega) h0
    have hd0 : 0 < d := Nat.pos_of_mul_pos_left hwd
    have hE : (elemAt w d p).1 < h ∧ (elemAt w d p).2.1 < w ∧ (elemAt w d p).2.2 < d := by
      refine ⟨?_, Nat.mod_lt _ (by omega), Nat.mod_lt _ hd0⟩
      show p / d / w < h
      rw [Nat.div_div_eq_div_mul, Nat.div_lt_iff_lt_mul (by rw [Nat.mul_comm]; exact hwd)]
      rw [Nat.mul_assoc, Nat.mul_comm w d] at hpl
      exact hpl
    have hcov := h4 (elemAt w d p).1 (elemAt w d p).2.1 (elemAt w d p).2.2
    rw [if_pos hE] at hcov
    obtain ⟨t, l, hl, hmem, huniq⟩ : ∃ (t : Nat) (l : List Job), ws[t]? = some l ∧ elemAt w d p ∈ elems l ∧
        ∀ (t' : Nat) (l' : List Job), t' ≠ t → ws[t']? = some l' → elemAt w d p ∉ elems l' := by
      exact one_region hws (elemAt w d p).1 (elemAt w d p).2.1 (elemAt w d p).2.2 hcov
    refine ⟨t, program B w d l, by rw [List.getElem?_map, hl]; rfl, ?_, ?_⟩
    · intro t' q' hne hq' st hst hw
      rw [List.getElem?_map] at hq'
      obtain ⟨l', hl', rfl⟩ := Option.map_eq_some_iff.1 hq'
      apply huniq t' l' hne hl'
      unfold program at hst
      obtain ⟨j, hj, hst⟩ := List.mem_flatMap.1 hst
      unfold Job.steps at hst
      rcases List.mem_append.1 hst with hst | hst
      · obtain ⟨k, hk, rfl⟩ := List.mem_map.1 hst
        exact absurd hw id
      · obtain ⟨ef, hef, rfl⟩ := List.mem_map.1 hst
        have he : ef.1 ∈ elems l' := by
          unfold elems
          exact List.mem_flatMap.2 ⟨j, hj, List.mem_map_of_mem hef⟩
        obtain ⟨_, a2, a3⟩ := hinside l' (List.mem_of_getElem? hl') _ he
        obtain ⟨_, hap⟩ : (0 : Nat) = 0 ∧ addr w d ef.1 = p := hw
        rw [← hap, elemAt_addr a2 a3]
        exact he
    · intro sec cur hsec
      rw [solo_program ins B w d p val l (hval l (List.mem_of_getElem? hl))
        (fun e he => (hinside l (List.mem_of_getElem? hl) e he).2) sec hsec cur, if_pos hmem, hb]

/-! ### Example -/

/-- A convolution with a scratch tensor, run by two threads, followed by a look-up in place, also run by two threads. -/
def exF : Func :=
  { argSizes := [8]
    ops :=
      [ ⟨false, false, false, [], [2]⟩,      -- 1: scratch, one byte for each of two threads
        ⟨false, false, false, [0, 1], [4]⟩,  -- 2: convolution, 2 rows, 1 column, 2 channels
        ⟨false, false, true, [2], [4]⟩,      -- 3: look-up, in place of 2
        ⟨false, true, false, [3], []⟩ ] }    -- return

/-- The convolution: three times the sum of two input bytes. -/
def exVal (ins : List (List Byte)) (e : Elem) : Byte :=
  3 * ((ins.headD []).getD (2 * addr 1 2 e) 0 + (ins.headD []).getD (2 * addr 1 2 e + 1) 0)

def exJob (e : Elem) : Job :=
  ⟨fun _ ins => (ins.headD []).getD (2 * addr 1 2 e) 0 + (ins.headD []).getD (2 * addr 1 2 e + 1) 0, [(e, fun _ sec => 3 * sec.headD 0)]⟩

/-- Thread 0 does row 0, thread 1 row 1. -/
def exWorks : List (List Job) := [[exJob (0, 0, 0), exJob (0, 0, 1)], [exJob (1, 0, 1), exJob (1, 0, 0)]]

/-- The look-up: 255 - x, in blocks of 3 bytes and 1 byte. -/
def exLut (bs : List Byte) : List Byte := bs.map fun x => 255 - x

def exBlocks : List (List Block) := [[⟨0, 3, fun ins => exLut (ins.headD [])⟩], [⟨3, 1, fun ins => exLut (ins.headD [])⟩]]

def exK : Kernels
  | 0, _ => [[0, 0]]
  | 1, ins => imageKernel 2 1 2 exVal ins
  | 2, ins => [slice 0 4 (exLut (ins.headD []) ++ [0, 0, 0, 0])]
  | _, _ => []

def exImpl : Nat → Impl
  | 0 => .skip
  | 1 => .threads (some 1) 1 (exWorks.map (program 1 1 2))
  | 2 => .blocks exBlocks
  | _ => .whole

theorem exScratch : ∀ v, isScratch exF exImpl v = true → v = 1 := by
  intro v h
  by_cases hv : v < exF.numValues
  · have : ∀ v < exF.numValues, (isScratch exF exImpl v = true → v = 1) := by decide
    exact this v hv h
  · unfold isScratch at h
    rw [decl_oob exF hv] at h
    cases h

theorem exImplOK : ImplOK exF exK exImpl := by
  constructor
  · intro j hj ho
    have : ∀ j < 4, (exF.op j).overlappable = true → j = 2 := by decide
    obtain rfl := this j hj ho
    exact Or.inr ⟨_, rfl⟩
  · intro j ps hj hi
    have hj2 : j = 2 := by
      match j, hi with
      | 2, _ => rfl
      | 0, hi => cases hi
      | 1, hi => cases hi
      | j + 3, hi => cases hi
    subst hj2
    have : ps = exBlocks := by injection hi with h; exact h.symm
    subst this
    refine ⟨4, rfl, ?_, ?_, ?_, ?_, ?_⟩
    · decide
    · intro st hst
      rcases (by simpa [exBlocks] using hst : st = _ ∨ st = _) with rfl | rfl <;> simp
    · simp [exBlocks]
    · intro p hp
      rcases Nat.lt_or_ge p 3 with h | h
      · exact ⟨_, List.mem_flatten.2 ⟨_, List.mem_cons_self, List.mem_cons_self⟩, by simp, by simpa using h⟩
      · exact ⟨⟨3, 1, fun ins => exLut (ins.headD [])⟩, by simp [exBlocks], by simpa using h, by simpa using hp⟩
    · intro val hval
      have hl : (val 2).length = 4 := hval 2 (by decide) (by decide)
      have hd : dataOperands (isScratch exF exImpl) (exF.op 2) = [2] := by decide
      have hc : (exF.decl 2).isConst = false := by decide
      rw [hd]
      refine ⟨_, rfl, ?_⟩
      intro st hst
      obtain ⟨a, b, c, d, e⟩ : ∃ a b c d, val 2 = [a, b, c, d] := by
        match val 2, hl with
        | [a, b, c, d], _ => exact ⟨a, b, c, d, rfl⟩
      rcases (by simpa [exBlocks] using hst : st = _ ∨ st = _) with rfl | rfl <;>
        simp [hc, e, slice, exLut]
  · intro v q hs hu
    obtain rfl := exScratch v hs
    have : ∀ q < 4, 1 ∈ (exF.op q).operands → q = 1 := by decide
    obtain rfl := this q hu.1 hu.2
    exact ⟨rfl, _, _, rfl⟩
  · intro j sc B ps hj hi
    have hj1 : j = 1 := by
      match j, hi with
      | 1, _ => rfl
      | 0, hi => cases hi
      | 2, hi => cases hi
      | j + 3, hi => cases hi
    subst hj1
    injection hi with h1 h2 h3
    subst h1 h2 h3
    exact ⟨by decide, by decide, by decide, by decide⟩
  · intro j sc B ps hj hi
    have hj1 : j = 1 := by
      match j, hi with
      | 1, _ => rfl
      | 0, hi => cases hi
      | 2, hi => cases hi
      | j + 3, hi => cases hi
    subst hj1
    injection hi with h1 h2 h3
    subst h1 h2 h3
    obtain ⟨rs, hrs, himp⟩ := C102_region_threads (fun _ d => if d = 0 then [] else [(0, d)]) (by
      intro n d hn
      by_cases h : d = 0
      · simp [h, Threads.Contiguous]
      · simp only [if_neg h, List.length_singleton]
        exact ⟨hn, rfl, by omega, rfl⟩) 2 2 1 2 (by decide) (by decide) (by decide) 1 1 exVal
    have hrs' : getImageRegionThreadSplits (fun _ d => if d = 0 then [] else [(0, d)]) 2 ⟨2, 1, 2, 0, 0, 1, 1⟩ =
        some [⟨0, 0, 0, 1, 1, 2⟩, ⟨1, 0, 0, 1, 1, 2⟩] := by decide
    rw [hrs'] at hrs
    obtain rfl := Option.some.inj hrs
    apply himp exWorks
    · refine .cons ?_ (.cons ?_ .nil)
      · intro y x c
        simp only [elems, exWorks, exJob, List.flatMap_cons, List.flatMap_nil, List.map_cons, List.map_nil, Region.Has,
          List.append_nil, List.cons_append, List.nil_append, List.mem_cons, List.not_mem_nil, or_false, Prod.mk.injEq]
        omega
      · intro y x c
        simp only [elems, exWorks, exJob, List.flatMap_cons, List.flatMap_nil, List.map_cons, List.map_nil, Region.Has,
          List.append_nil, List.cons_append, List.nil_append, List.mem_cons, List.not_mem_nil, or_false, Prod.mk.injEq]
        omega
    · intro l hl j hj
      have : ∃ e, j = exJob e := by
        simp only [exWorks, List.mem_cons, List.not_mem_nil, or_false] at hl
        rcases hl with rfl | rfl <;> (simp only [List.mem_cons, List.not_mem_nil, or_false] at hj; rcases hj with rfl | rfl) <;> exact ⟨_, rfl⟩
      obtain ⟨e, rfl⟩ := this
      intro ef hef ins
      obtain rfl : ef = _ := by simpa [exJob] using hef
      simp [exJob, exVal, List.range_succ]

theorem exWF : exF.WF := Func.wf_of_check (by decide)
theorem exInPlace : exF.InPlaceOK := Func.inPlaceOK_of_check (by decide)

/-- The example meets all hypotheses of `C102_any_schedule`; the look-up really is planned in place of its input, and every run ends with the outputs
255 - 3 (1 + 2), 255 - 3 (3 + 4), 255 - 3 (5 + 6), 255 - 3 (7 + 8). -/
theorem C102_example : exF.WF ∧ exF.InPlaceOK ∧ Kernels.Fit exF exK ∧ ImplOK exF exK exImpl ∧
    ∃ p, getAllocatedOffsets exF true = some p ∧ offsetOf p.offsets 2 = offsetOf p.offsets 3 ∧
      (∀ m c, ∃ tr, Run exF exK exImpl p.offsets exF.ops 0 (loadInputs p.offsets [[1, 2, 3, 4, 5, 6, 7, 8]] m) c tr) ∧
      ∀ m c tr, Run exF exK exImpl p.offsets exF.ops 0 (loadInputs p.offsets [[1, 2, 3, 4, 5, 6, 7, 8]] m) c tr →
        tr.getD 3 [] = [[246, 234, 222, 210]] := by
  have hfit : Kernels.Fit exF exK := by
    intro j ins hj
    match j, hj with
    | 0, _ => rfl
    | 1, _ => simp [exK, imageKernel, exF, Func.op]
    | 2, _ => simp [exK, slice, exF, Func.op]
    | 3, _ => rfl
  refine ⟨exWF, exInPlace, hfit, exImplOK, ?_⟩
  obtain ⟨p, hp, hoff⟩ : ∃ p, getAllocatedOffsets exF true = some p ∧ offsetOf p.offsets 2 = offsetOf p.offsets 3 :=
    ⟨⟨[16, 8, 0, 0], 24, 1⟩, by decide +kernel, by decide⟩
  refine ⟨p, hp, hoff, fun m c => C102_runs_exist _ _ _ _ _ _ _ _, ?_⟩
  intro m c tr h
  rw [C102_any_schedule exWF exInPlace hp exK hfit exImpl exImplOK _ (by decide) m c tr h]
  decide +kernel

end Verif.MemPlan.Conc

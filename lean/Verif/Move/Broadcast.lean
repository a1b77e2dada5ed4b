import Verif.Move.SlicePad
/-! Property theorem C22. -/
namespace Verif.Move
open Verif.Tensor

/-- Broadcasting between shapes of equal rank. -/
def bc {α : Type} (is : List Nat) (f : List Nat → α) (idx : List Nat) : α :=
  f (List.zipWith (fun n i => if n = 1 then 0 else i) is idx)

def Compat (axes : List (Nat × Nat)) : Prop := ∀ io ∈ axes, io.1 = io.2 ∨ io.1 = 1

theorem bc_cons {α : Type} (n i : Nat) (is idx : List Nat) (f : List Nat → α) :
    bc (n :: is) f (i :: idx) = bc is (fun r => f ((if n = 1 then 0 else i) :: r)) idx := rfl

theorem bytes_congr {B : Type} {s : List Nat} {f g : List Nat → List B} (h : ∀ idx, InShape s idx → f idx = g idx) :
    bytes s f = bytes s g := by unfold bytes; rw [flat_congr h]

/-- One axis of equal size. -/
theorem bc_equal {B : Type} (n : Nat) (is os : List Nat) (f : List Nat → List B) :
    bytes (n :: os) (bc (n :: is) f) = (List.range n).flatMap fun i => bytes os (bc is fun r => f (i :: r)) := by
  rw [bytes_cons]
  apply flatMap_congr'
  intro i hi
  have hi : i < n := by simpa using hi
  apply bytes_congr
  intro idx _
  rw [bc_cons]
  congr 1
  funext r
  split
  · have : i = 0 := by omega
    rw [this]
  · rfl

/-- One repeated axis. -/
theorem bc_repeat {B : Type} (o : Nat) (is os : List Nat) (f : List Nat → List B) :
    bytes (o :: os) (bc (1 :: is) f) = (List.range o).flatMap fun _ => bytes os (bc is fun r => f (0 :: r)) := by
  rw [bytes_cons]
  apply flatMap_congr'
  intro i _
  apply bytes_congr
  intro idx _
  rw [bc_cons]; simp

theorem bytes_one {B : Type} (s : List Nat) (f : List Nat → List B) : bytes (1 :: s) f = bytes s fun r => f (0 :: r) := by
  rw [bytes_cons]; simp

theorem loopC (S N M : Nat) (axes : List (Nat × Nat)) (s : BState)
    (h : broadcastLoop ⟨false, S, N, M⟩ axes = some s) :
    s = ⟨false, S * (axes.map (·.1)).prod, N, M⟩ ∧ ∀ io ∈ axes, io.1 = io.2 := by
  induction axes generalizing S with
  | nil =>
    unfold broadcastLoop at h
    cases h
    simp
  | cons io axes ih =>
    obtain ⟨i, o⟩ := io
    simp only [broadcastLoop, broadcastStep, Bool.false_eq_true, if_false] at h
    by_cases hio : i = o
    · simp only [hio, ne_eq, not_true_eq_false, if_false, Option.bind_some] at h
      obtain ⟨h1, h2⟩ := ih _ h
      refine ⟨?_, ?_⟩
      · rw [h1]; simp [Nat.mul_assoc, hio]
      · intro x hx
        rcases List.mem_cons.1 hx with hx | hx
        · rw [hx]; exact hio
        · exact h2 x hx
    · simp [hio] at h

theorem bc_allEqual {B : Type} (axes : List (Nat × Nat)) (h : ∀ io ∈ axes, io.1 = io.2) (f : List Nat → List B) :
    bytes (axes.map (·.2)) (bc (axes.map (·.1)) f) = bytes (axes.map (·.1)) f := by
  induction axes generalizing f with
  | nil => rfl
  | cons io axes ih =>
    obtain ⟨i, o⟩ := io
    have : i = o := h (i, o) (by simp)
    subst this
    simp only [List.map_cons]
    rw [bc_equal, bytes_cons]
    apply flatMap_congr'
    intro i _
    exact ih (fun io hio => h io (by simp [hio])) _

theorem flatMap_const_mul {B : Type} (a b : Nat) (m : List B) :
    ((List.range a).flatMap fun _ => (List.range b).flatMap fun _ => m) = (List.range (a * b)).flatMap fun _ => m :=
  range_mul_flatMap a b fun _ _ => m

theorem loopB (d nc nb : Nat) (axes : List (Nat × Nat)) (s : BState) (hc : Compat axes) (hnc : nc ≠ 1)
    (h : broadcastLoop ⟨true, d, nc, nb⟩ axes = some s) :
    ∃ N', s.numCopies = nc * N' ∧ s.numBroadcasts = nb ∧ s.size = d * (axes.map (·.1)).prod ∧
      ∀ (B : Type) (f : List Nat → List B), bytes (axes.map (·.2)) (bc (axes.map (·.1)) f) =
        (List.range N').flatMap fun _ => bytes (axes.map (·.1)) f := by
  induction axes generalizing nc nb with
  | nil =>
    unfold broadcastLoop at h
    cases h
    exact ⟨1, by simp, rfl, by simp, fun B f => by simp [bytes, flat, bc]⟩
  | cons io axes ih =>
    obtain ⟨i, o⟩ := io
    have hc' : Compat axes := fun x hx => hc x (by simp [hx])
    simp only [broadcastLoop, broadcastStep, if_true] at h
    by_cases hio : i = o
    · subst hio
      simp only [ne_eq, not_true_eq_false, if_false, hnc, not_false_eq_true, true_and] at h
      by_cases ho : i = 1
      · subst ho
        simp only [not_true_eq_false, if_false, Option.bind_some, Nat.mul_one] at h
        obtain ⟨N', h1, h2, h3, h4⟩ := ih nc nb hc' hnc h
        refine ⟨N', h1, h2, by simp [h3], fun B f => ?_⟩
        simp only [List.map_cons]
        rw [bc_repeat, bytes_one, ← h4]
        simp
      · simp only [ho, not_false_eq_true, if_true, Option.bind_some] at h
        obtain ⟨h1, h2⟩ := loopC _ _ _ _ _ h
        refine ⟨1, by rw [h1]; simp, by rw [h1], by rw [h1]; simp [Nat.mul_assoc], fun B f => ?_⟩
        rw [bc_allEqual]
        · simp
        · intro x hx
          rcases List.mem_cons.1 hx with hx | hx
          · rw [hx]
          · exact h2 x hx
    · have hi : i = 1 := (hc (i, o) (by simp)).resolve_left hio
      subst hi
      simp only [ne_eq, hio, not_false_eq_true, if_true, Option.bind_some] at h
      have hne : nc * o ≠ 1 := by
        intro h1
        exact hnc (Nat.eq_one_of_mul_eq_one_right h1)
      obtain ⟨N', h1, h2, h3, h4⟩ := ih (nc * o) nb hc' hne h
      refine ⟨o * N', by rw [h1, Nat.mul_assoc], h2, by simp [h3], fun B f => ?_⟩
      simp only [List.map_cons]
      rw [bc_repeat, bytes_one, ← flatMap_const_mul]
      apply flatMap_congr'
      intro _ _
      exact h4 B _

theorem kernel_blocks {B : Type} (S N M n : Nat) (g : Nat → List B) (hg : ∀ i, (g i).length = M * S) :
    broadcastKernel S N (n * M) ((List.range n).flatMap g) = (List.range n).flatMap fun i => broadcastKernel S N M (g i) := by
  unfold broadcastKernel
  have e := range_mul_flatMap n M fun i j => (List.range N).flatMap fun _ => ((g i).drop (j * S)).take S
  rw [e]
  apply flatMap_congr'
  intro k hk
  have hk : k < n * M := by simpa using hk
  have hM : 0 < M := by
    rcases Nat.eq_zero_or_pos M with h | h
    · rw [h] at hk; simp at hk
    · exact h
  apply flatMap_congr'
  intro _ _
  have h1 : k / M < n := (Nat.div_lt_iff_lt_mul hM).2 hk
  have h2 : k % M < M := Nat.mod_lt _ hM
  have h3 : k * S = (k / M) * (M * S) + (k % M) * S := by
    have := Nat.div_add_mod k M
    calc k * S = (M * (k / M) + k % M) * S := by rw [this]
      _ = _ := by ring
  rw [h3, ← List.drop_drop, drop_flatMap_range g (M * S) hg n (k / M) (by omega)]
  obtain ⟨q, hq⟩ : ∃ q, n - k / M = q + 1 := ⟨n - k / M - 1, by omega⟩
  rw [hq, List.range_succ_eq_map, List.flatMap_cons, Nat.add_zero, take_drop_row]
  rw [hg]
  have := Nat.mul_le_mul_right S (show k % M + 1 ≤ M by omega)
  rw [Nat.add_mul] at this
  omega

theorem loopA (d nb : Nat) (axes : List (Nat × Nat)) (s : BState) (hc : Compat axes)
    (h : broadcastLoop ⟨true, d, 1, nb⟩ axes = some s) :
    ∃ M', s.numBroadcasts = nb * M' ∧ M' * s.size = (axes.map (·.1)).prod * d ∧
      ∀ (B : Type) (f : List Nat → List B), (∀ i, (f i).length = d) →
        broadcastKernel s.size s.numCopies M' (bytes (axes.map (·.1)) f) =
          bytes (axes.map (·.2)) (bc (axes.map (·.1)) f) := by
  induction axes generalizing nb with
  | nil =>
    unfold broadcastLoop at h
    cases h
    refine ⟨1, by simp, by simp, fun B f hf => ?_⟩
    simp [bytes, flat, bc, broadcastKernel, ← hf []]
  | cons io axes ih =>
    obtain ⟨i, o⟩ := io
    have hc' : Compat axes := fun x hx => hc x (by simp [hx])
    simp only [broadcastLoop, broadcastStep, if_true] at h
    by_cases hio : i = o
    · subst hio
      simp only [ne_eq, not_true_eq_false, if_false, false_and, Option.bind_some] at h
      obtain ⟨M', h1, h2, h3⟩ := ih (nb * i) hc' h
      refine ⟨i * M', by rw [h1, Nat.mul_assoc], by simp only [List.map_cons, List.prod_cons]; rw [Nat.mul_assoc, h2]; ring, fun B f hf => ?_⟩
      simp only [List.map_cons]
      rw [bc_equal, bytes_cons, kernel_blocks]
      · apply flatMap_congr'
        intro j _
        exact h3 B _ (fun _ => hf _)
      · intro j
        rw [length_bytes _ _ d (fun _ => hf _), h2]
    · have hi : i = 1 := (hc (i, o) (by simp)).resolve_left hio
      subst hi
      simp only [ne_eq, hio, not_false_eq_true, if_true, Option.bind_some, Nat.one_mul] at h
      obtain ⟨N', h1, h2, h3, h4⟩ := loopB d o nb axes s hc' (fun h => hio h.symm) h
      refine ⟨1, by simp [h2], by simp only [List.map_cons, List.prod_cons]; rw [h3]; ring, fun B f hf => ?_⟩
      simp only [List.map_cons]
      rw [bc_repeat, bytes_one, h1]
      have hlen : (bytes (axes.map (·.1)) fun r => f (0 :: r)).length = s.size := by
        rw [length_bytes _ _ d (fun _ => hf _), h3]; ring
      unfold broadcastKernel
      simp only [List.range_one, List.flatMap_cons, List.flatMap_nil, List.append_nil, Nat.zero_mul, List.drop_zero]
      rw [← hlen, List.take_length, ← flatMap_const_mul]
      apply flatMap_congr'
      intro _ _
      exact (h4 B _).symm

theorem bytes_padOnes {B : Type} (k : Nat) (s : List Nat) (f : List Nat → List B) :
    bytes (List.replicate k 1 ++ s) (fun idx => f (idx.drop k)) = bytes s f := by
  induction k with
  | zero => simp
  | succ k ih => rw [List.replicate_succ, List.cons_append, bytes_one]; simpa using ih

theorem zipWith_drop (k : Nat) (s idx : List Nat) (h : k ≤ idx.length) :
    (List.zipWith (fun n i => if n = 1 then 0 else i) (List.replicate k 1 ++ s) idx).drop k =
      List.zipWith (fun n i => if n = 1 then 0 else i) s (idx.drop k) := by
  induction k generalizing idx with
  | zero => simp
  | succ k ih =>
    cases idx with
    | nil => simp at h
    | cons i idx => simpa [List.replicate_succ] using ih idx (by simpa using h)

/-- **C22.** For every element width and every pair of shapes: whatever the lowering produces, running it on the
row-major bytes of the input gives the row-major bytes of the broadcast tensor, reading exactly the input; the vector copy
is chosen only when the block length is a multiple of four. -/
theorem C22_lowered_broadcast {B : Type} (d : Nat) (inShape outShape : List Nat) (hr : inShape.length ≤ outShape.length)
    (f : List Nat → List B) (hf : ∀ i, (f i).length = d) :
    let mem := (flat inShape f).flatten
    let want := (flat outShape (broadcastT inShape f)).flatten
    match lowerBroadcast d inShape outShape with
    | .noop => want = mem
    | .op p =>
        broadcastKernel p.size p.numCopies p.numBroadcasts mem = want ∧ p.numBroadcasts * p.size = mem.length ∧
        (p.useVpu = true → 4 ∣ p.size)
    | .fail => True
    | .undef => False := by
  intro mem want
  have hplen : (padOnes inShape outShape).length = outShape.length := by
    unfold padOnes; simp; omega
  have hwant : want = bytes outShape (bc (padOnes inShape outShape) fun idx => f (idx.drop (outShape.length - inShape.length))) := by
    show bytes outShape (broadcastT inShape f) = _
    apply bytes_congr
    intro idx hidx
    have hl := length_inShape hidx
    unfold broadcastT bc padOnes
    show f _ = f _
    rw [zipWith_drop _ _ _ (by omega), hl]
  have hmem : mem = bytes (padOnes inShape outShape) fun idx => f (idx.drop (outShape.length - inShape.length)) := by
    show bytes inShape f = _
    unfold padOnes
    rw [bytes_padOnes]
  have hz1 : ((padOnes inShape outShape).zip outShape).map (·.1) = padOnes inShape outShape :=
    List.map_fst_zip (by omega)
  have hz2 : ((padOnes inShape outShape).zip outShape).map (·.2) = outShape :=
    List.map_snd_zip (by omega)
  unfold lowerBroadcast
  by_cases heq : inShape = outShape
  · rw [if_pos heq]
    show want = mem
    rw [hwant, hmem]
    subst heq
    have hall : ∀ io ∈ (padOnes inShape inShape).zip inShape, io.1 = io.2 := by
      unfold padOnes
      simp only [Nat.sub_self, List.replicate_zero, List.nil_append]
      intro io hio
      have : ∀ (l : List Nat) io, io ∈ l.zip l → io.1 = io.2 := by
        intro l
        induction l with
        | nil => simp
        | cons a l ih =>
          intro io hio
          rw [List.zip_cons_cons] at hio
          rcases List.mem_cons.1 hio with h | h
          · rw [h]
          · exact ih io h
      exact this _ io hio
    have := bc_allEqual _ hall (fun idx => f (idx.drop (inShape.length - inShape.length)))
    rw [hz1, hz2] at this
    exact this
  · rw [if_neg heq]
    simp only
    by_cases hall : ((padOnes inShape outShape).zip outShape).all (fun io => io.1 = io.2 || io.1 = 1) = true
    · rw [if_pos hall]
      have hc : Compat ((padOnes inShape outShape).zip outShape) := by
        intro io hio
        have := (List.all_eq_true.1 hall) io hio
        simpa using this
      cases hloop : broadcastLoop ⟨true, d, 1, 1⟩ ((padOnes inShape outShape).zip outShape) with
      | none => trivial
      | some s =>
        simp only
        obtain ⟨M', h1, h2, h3⟩ := loopA d 1 _ s hc hloop
        rw [Nat.one_mul] at h1
        rw [hz1] at h2
        rw [hz1, hz2] at h3
        refine ⟨?_, ?_, ?_⟩
        · rw [h1, hmem, hwant]; exact h3 B _ (fun _ => hf _)
        · rw [h1, h2, hmem, length_bytes _ _ d (fun _ => hf _)]
        · intro h
          exact Nat.dvd_of_mod_eq_zero (by simpa using h)
    · rw [if_neg hall]; trivial

/-- **C22, completeness.** A broadcast whose repeated axes are consecutive is always lowered: the shapes are the same in
front and behind, with only unit input dimensions in between. -/
theorem C22_consecutive_is_lowered (d : Nat) (a os c : List Nat) :
    lowerBroadcast d (a ++ os.map (fun _ => 1) ++ c) (a ++ os ++ c) ≠ .fail := by
  have hC : ∀ (c : List Nat) S N M, (broadcastLoop ⟨false, S, N, M⟩ (c.zip c)).isSome := by
    intro c
    induction c with
    | nil => simp [broadcastLoop]
    | cons x c ih => intro S N M; simpa [broadcastLoop, broadcastStep] using ih (S * x) N M
  have hT : ∀ (c : List Nat) d N M, (broadcastLoop ⟨true, d, N, M⟩ (c.zip c)).isSome := by
    intro c
    induction c with
    | nil => simp [broadcastLoop]
    | cons x c ih =>
      intro d N M
      simp only [List.zip_cons_cons, broadcastLoop, broadcastStep, if_true, ne_eq, not_true_eq_false, if_false]
      split
      · simpa using hC c (d * x) N M
      · simpa using ih d N (M * x)
  have hB : ∀ (os c : List Nat) d N M,
      (broadcastLoop ⟨true, d, N, M⟩ (((os.map fun _ => 1) ++ c).zip (os ++ c))).isSome := by
    intro os c
    induction os with
    | nil => intro d N M; simpa using hT c d N M
    | cons x os ih =>
      intro d N M
      simp only [List.map_cons, List.cons_append, List.zip_cons_cons, broadcastLoop, broadcastStep, if_true]
      by_cases hx : x = 1
      · subst hx
        simp only [ne_eq, not_true_eq_false, and_false, if_false, Option.bind_some]
        exact ih _ _ _
      · simp only [ne_eq, show ¬ (1 = x) from fun h => hx h.symm, not_false_eq_true, if_true, Option.bind_some]
        exact ih _ _ _
  have hA : ∀ (a : List Nat) d M,
      (broadcastLoop ⟨true, d, 1, M⟩ ((a ++ ((os.map fun _ => 1) ++ c)).zip (a ++ (os ++ c)))).isSome := by
    intro a
    induction a with
    | nil => intro d M; exact hB os c d 1 M
    | cons x a ih => intro d M; simpa [broadcastLoop, broadcastStep] using ih d (M * x)
  unfold lowerBroadcast
  split
  · simp
  · have hp : padOnes (a ++ os.map (fun _ => 1) ++ c) (a ++ os ++ c) = a ++ (os.map (fun _ => 1) ++ c) := by
      unfold padOnes; simp
    simp only [hp]
    rw [show a ++ os ++ c = a ++ (os ++ c) by simp]
    have := hA a d 1
    split
    · split
      · rename_i h; rw [h] at this; simp at this
      · simp
    · rename_i hall
      refine absurd ?_ hall
      rw [List.all_eq_true]
      intro io hio
      rw [List.zip_append (by simp), List.zip_append (by simp), List.mem_append, List.mem_append] at hio
      have hself : ∀ (l : List Nat) io, io ∈ l.zip l → io.1 = io.2 := by
        intro l
        induction l with
        | nil => simp
        | cons a l ih =>
          intro io hio
          rw [List.zip_cons_cons] at hio
          rcases List.mem_cons.1 hio with h | h
          · rw [h]
          · exact ih io h
      rcases hio with h | h | h
      · simp [hself _ _ h]
      · have h1 := (List.of_mem_zip (a := io.1) (b := io.2) h).1
        have : io.1 = 1 := by simp only [List.mem_map] at h1; obtain ⟨_, _, h⟩ := h1; exact h.symm
        simp [this]
      · simp [hself _ _ h]

example : lowerBroadcast 1 [2, 1, 1, 8] [2, 3, 5, 8] = .op ⟨8, 15, 2, true⟩ := by decide
example : lowerBroadcast 1 [4, 1] [2, 3, 4, 5] = .fail := by decide
example : lowerBroadcast 1 [3, 1, 6] [2, 3, 1, 6] = .op ⟨18, 2, 1, false⟩ := by decide

end Verif.Move

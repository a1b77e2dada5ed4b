import Verif.Audio.OverlapModel
import Verif.Audio.Mel
/-!
C91: the overlap-add.
-/
namespace Verif.Audio

/-! ### Specification -/

/-- The sum, over the frames so far (latest first), of their samples for the same moment: every frame is `A` samples later than
the one before. -/
def olaSum (A : Nat) : List (List Int) → Nat → Int
  | [], _ => 0
  | f :: fs, i => f.getD i 0 + olaSum A fs (i + A)

/-! ### Output -/

theorem olaSum_past {A : Nat} (fs : List (List Int)) (i : Nat) (h : ∀ f ∈ fs, f.length ≤ i) : olaSum A fs i = 0 := by
  induction fs generalizing i with
  | nil => rfl
  | cons f fs ih =>
    rw [olaSum, ih (i + A) (fun g hg => by have := h g (by simp [hg]); omega)]
    have := h f (by simp)
    rw [List.getD_eq_getElem?_getD, List.getElem?_eq_none (by omega)]
    rfl

/-- One step: what is handed out and what is kept are the sums. -/
theorem olaStep_spec (A : Nat) (out f : List Int) (past : List (List Int)) (ho : out.length = 4 * A) (hf : f.length = 4 * A)
    (hp : ∀ g ∈ past, g.length = 4 * A) (hv : ∀ i, i < 3 * A → out.getD i 0 = wrap32 (olaSum A past (i + A))) (h32 : ∀ v ∈ f, wrap32 v = v) :
    (olaStep A out f).1 = (List.range A).map (fun i => wrap32 (olaSum A (f :: past) i)) ∧ (olaStep A out f).2.length = 4 * A ∧
    ∀ i, i < 3 * A → (olaStep A out f).2.getD i 0 = wrap32 (olaSum A (f :: past) (i + A)) := by
  have key : ∀ i, i < 4 * A → (List.zipWith (fun a b => wrap32 (a + b)) (out.take (3 * A)) (f.take (3 * A)) ++ f.drop (3 * A))[i]? =
      some (wrap32 (olaSum A (f :: past) i)) := by
    intro i hi
    have fi : f.getD i 0 = f[i] := by simp [List.getD_eq_getElem?_getD, List.getElem?_eq_getElem (show i < f.length by omega)]
    have zl : (List.zipWith (fun a b => wrap32 (a + b)) (out.take (3 * A)) (f.take (3 * A))).length = 3 * A := by
      simp [ho, hf]
    rw [olaSum, fi]
    by_cases c : i < 3 * A
    · have oi : out.getD i 0 = out[i] := by simp [List.getD_eq_getElem?_getD, List.getElem?_eq_getElem (show i < out.length by omega)]
      rw [List.getElem?_append_left (by omega), List.getElem?_zipWith, List.getElem?_take_of_lt c, List.getElem?_take_of_lt c,
        List.getElem?_eq_getElem (show i < out.length by omega), List.getElem?_eq_getElem (show i < f.length by omega)]
      simp only [Option.some.injEq]
      rw [← oi, hv i c, wrap32_add, Int.add_comm]
    · rw [List.getElem?_append_right (by omega), zl, List.getElem?_drop, List.getElem?_eq_getElem (show 3 * A + (i - 3 * A) < f.length by omega),
        olaSum_past past (i + A) (fun g hg => by rw [hp g hg]; omega), Int.add_zero]
      have e : 3 * A + (i - 3 * A) = i := by omega
      simp only [e, Option.some.injEq]
      exact (h32 _ (List.getElem_mem _)).symm
  have len : (List.zipWith (fun a b => wrap32 (a + b)) (out.take (3 * A)) (f.take (3 * A)) ++ f.drop (3 * A)).length = 4 * A := by
    simp [ho, hf]; omega
  unfold olaStep
  generalize (List.zipWith (fun a b => wrap32 (a + b)) (out.take (3 * A)) (f.take (3 * A)) ++ f.drop (3 * A)) = added at *
  refine ⟨?_, ?_, ?_⟩
  · apply List.ext_getElem?
    intro i
    by_cases c : i < A
    · simp only
      rw [List.getElem?_take_of_lt c, key i (by omega)]
      simp [c]
    · rw [List.getElem?_eq_none (by simp; omega), List.getElem?_eq_none (by simp; omega)]
  · simp [len]; omega
  · intro i hi
    simp only
    rw [List.getD_eq_getElem?_getD, List.getElem?_append_left (by simp [len]; omega), List.getElem?_drop, Nat.add_comm A i, key (i + A) (by omega)]
    rfl

theorem olaRun_spec (A : Nat) (fs : List (List Int)) : ∀ (out : List Int) (past : List (List Int)), out.length = 4 * A →
    (∀ f ∈ fs, f.length = 4 * A) → (∀ g ∈ past, g.length = 4 * A) → (∀ i, i < 3 * A → out.getD i 0 = wrap32 (olaSum A past (i + A))) →
    (∀ f ∈ fs, ∀ v ∈ f, wrap32 v = v) → ∀ k, k < fs.length →
    (olaRun A out fs)[k]? = some ((List.range A).map fun i => wrap32 (olaSum A ((fs.take (k + 1)).reverse ++ past) i)) := by
  induction fs with
  | nil => intro _ _ _ _ _ _ _ k hk; simp at hk
  | cons f fs ih =>
    intro out past ho hf hp hv h32 k hk
    obtain ⟨s1, s2, s3⟩ := olaStep_spec A out f past ho (hf f (by simp)) hp hv (h32 f (by simp))
    rw [olaRun]
    cases k with
    | zero => simp only [List.getElem?_cons_zero, s1]; simp
    | succ k =>
      simp only [List.getElem?_cons_succ]
      rw [ih _ (f :: past) s2 (fun g hg => hf g (by simp [hg])) ?_ s3 (fun g hg => h32 g (by simp [hg])) k (by simpa using hk)]
      · simp [List.take_succ_cons, List.reverse_cons]
      · intro g hg
        rcases List.mem_cons.1 hg with q | q
        · rw [q]; exact hf f (by simp)
        · exact hp g q

/-- **C91, overlap-add.** Starting from silence, block `k` of the output is, sample by sample, the sum of everything that frames `0`
to `k` hold for that moment; nothing is lost, repeated or added twice, for any number of frames. -/
theorem C91_overlap_add (A : Nat) (fs : List (List Int)) (hf : ∀ f ∈ fs, f.length = 4 * A) (h32 : ∀ f ∈ fs, ∀ v ∈ f, -2 ^ 31 ≤ v ∧ v < 2 ^ 31)
    (k : Nat) (hk : k < fs.length) :
    (olaRun A (List.replicate (4 * A) 0) fs)[k]? = some ((List.range A).map fun i => wrap32 (olaSum A (fs.take (k + 1)).reverse i)) := by
  have := olaRun_spec A fs (List.replicate (4 * A) 0) [] (by simp) hf (by simp) ?_ (fun f hf v hv => wrap32_id (h32 f hf v hv).1 (h32 f hf v hv).2) k hk
  · simpa using this
  · intro i hi
    rw [List.getD_eq_getElem?_getD, List.getElem?_replicate, if_pos (by omega)]
    rfl

/-! ### Input -/

theorem downs_append {S : Type} (ds : S → Int → Int → Int → S × Int) (xs : List Int) (ys : List Int) : ∀ (s : S) (n : Nat), xs.length = 3 * n →
    downs ds s (xs ++ ys) = ((downs ds (downs ds s xs).1 ys).1, (downs ds s xs).2 ++ (downs ds (downs ds s xs).1 ys).2) ∧ (downs ds s xs).2.length = n := by
  intro s n
  induction n generalizing xs s with
  | zero =>
    intro h
    have : xs = [] := List.length_eq_zero_iff.1 (by omega)
    subst this
    simp [downs]
  | succ n ih =>
    intro h
    match xs, h with
    | a :: b :: c :: rest, h =>
      obtain ⟨e, l⟩ := ih rest (ds s a b c).1 (by simp at h; omega)
      simp only [List.cons_append, downs]
      rw [e]
      simp [l]

theorem timeRun_spec {S : Type} (ds : S → Int → Int → Int → S × Int) (A : Nat) (bs : List (List Int)) : ∀ (st : InSt S), st.frame.length = 4 * A →
    (∀ b ∈ bs, b.length = 3 * A) → ∀ k, k < bs.length →
    (timeRun ds A st bs)[k]? = some (((st.frame ++ (downs ds st.state bs.flatten).2).drop ((k + 1) * A)).take (4 * A)) := by
  induction bs with
  | nil => intro _ _ _ k hk; simp at hk
  | cons b bs ih =>
    intro st hl hb k hk
    obtain ⟨e, l⟩ := downs_append ds b bs.flatten st.state A (hb b (by simp))
    have hfl : (timeStep ds A st b).frame.length = 4 * A := by simp [timeStep, hl, l]; omega
    rw [timeRun, List.flatten_cons, e]
    have e2 : (timeStep ds A st b).frame ++ (downs ds (downs ds st.state b).1 bs.flatten).2 =
        (st.frame ++ ((downs ds st.state b).2 ++ (downs ds (downs ds st.state b).1 bs.flatten).2)).drop A := by
      rw [timeStep, List.drop_append_of_le_length (by omega), List.append_assoc]
    cases k with
    | zero =>
      simp only [List.getElem?_cons_zero, Nat.zero_add, Nat.one_mul]
      rw [← e2, List.take_append_of_le_length (by omega), List.take_of_length_le (by omega)]
    | succ k =>
      simp only [List.getElem?_cons_succ]
      rw [ih _ hfl (fun c hc => hb c (by simp [hc])) k (by simpa using hk)]
      change some (((timeStep ds A st b).frame ++ (downs ds (downs ds st.state b).1 bs.flatten).2).drop _ |>.take _) = _
      rw [e2, List.drop_drop]
      congr 3
      ring

/-- **C91, input.** The frame after block `k` is the last four blocks' worth of the down-sampled signal, as if the converter had run
over the whole signal at once; before the first sample there is silence. -/
theorem C91_input {S : Type} (ds : S → Int → Int → Int → S × Int) (A : Nat) (s0 : S) (bs : List (List Int)) (hb : ∀ b ∈ bs, b.length = 3 * A)
    (k : Nat) (hk : k < bs.length) :
    (timeRun ds A ⟨List.replicate (4 * A) 0, s0⟩ bs)[k]? =
      some (((List.replicate (4 * A) 0 ++ (downs ds s0 bs.flatten).2).drop ((k + 1) * A)).take (4 * A)) :=
  timeRun_spec ds A bs _ (by simp) hb k hk

/-! ### Both together -/

/-- The window is a partition: four samples that are a quarter of it apart add up to one, up to two units. -/
theorem window_sum : raisedCosine.length = 512 ∧ (∀ w ∈ raisedCosine, 0 ≤ w ∧ w ≤ 2 ^ 30) ∧ ∀ j, j < 128 →
    2 ^ 30 - 2 ≤ raisedCosine.getD j 0 / 2 + raisedCosine.getD (j + 128) 0 / 2 + raisedCosine.getD (j + 256) 0 / 2 + raisedCosine.getD (j + 384) 0 / 2 ∧
    raisedCosine.getD j 0 / 2 + raisedCosine.getD (j + 128) 0 / 2 + raisedCosine.getD (j + 256) 0 / 2 + raisedCosine.getD (j + 384) 0 / 2 ≤ 2 ^ 30 := by
  decide +kernel

/-- The frame that comes back from the inverse transform when the spectrum is not changed: the transforms are exact and the net
shift of dsp.c 48 is two bits. -/
def backFrame (frame : List Int) : List Int := (windowed frame).map (4 * ·)

theorem take_succ_reverse {α : Type} (l : List α) (k : Nat) (h : k < l.length) : (l.take (k + 1)).reverse = l[k] :: (l.take k).reverse := by
  rw [List.take_add_one, List.getElem?_eq_getElem h]; simp

theorem back_len (frame : List Int) (h : frame.length = 512) : (backFrame frame).length = 512 := by
  simp [backFrame, windowed, window_sum.1, h]

theorem win_range (w x : Int) (hw : 0 ≤ w ∧ w ≤ 2 ^ 30) (hx : -2 ^ 31 ≤ x ∧ x < 2 ^ 31) :
    wrap32 (w / 2 * x / 2 ^ 32) = w / 2 * x / 2 ^ 32 ∧ -2 ^ 31 ≤ 4 * (w / 2 * x / 2 ^ 32) ∧ 4 * (w / 2 * x / 2 ^ 32) < 2 ^ 31 := by
  have h0 : 0 ≤ w / 2 := by omega
  have h1 : w / 2 ≤ 2 ^ 29 := by omega
  obtain ⟨l, u⟩ := hx
  have a : -2 ^ 28 ≤ w / 2 * x / 2 ^ 32 := by rw [Int.le_ediv_iff_mul_le (by norm_num)]; nlinarith
  have b : w / 2 * x / 2 ^ 32 ≤ 2 ^ 28 := by apply Int.ediv_le_of_le_mul (by norm_num); nlinarith
  generalize w / 2 * x / 2 ^ 32 = q at *
  exact ⟨wrap32_id (by omega) (by omega), by omega, by omega⟩

attribute [local irreducible] raisedCosine

theorem back_get (frame : List Int) (h : frame.length = 512) (hx : ∀ x ∈ frame, -2 ^ 31 ≤ x ∧ x < 2 ^ 31) (i : Nat) (hi : i < 512) :
    (backFrame frame).getD i 0 = 4 * (raisedCosine.getD i 0 / 2 * frame.getD i 0 / 2 ^ 32) := by
  have hw := window_sum.1
  have ew : raisedCosine.getD i 0 = raisedCosine[i] := by simp [List.getD_eq_getElem?_getD, List.getElem?_eq_getElem (show i < raisedCosine.length by omega)]
  have ef : frame.getD i 0 = frame[i] := by simp [List.getD_eq_getElem?_getD, List.getElem?_eq_getElem (show i < frame.length by omega)]
  rw [ew, ef, List.getD_eq_getElem?_getD]
  unfold backFrame windowed
  rw [List.getElem?_map, List.getElem?_zipWith, List.getElem?_eq_getElem (show i < raisedCosine.length by omega), List.getElem?_eq_getElem (show i < frame.length by omega)]
  simp only [Option.map_some, Option.getD_some]
  have hm := hx _ (List.getElem_mem (show i < frame.length by omega))
  rw [(win_range raisedCosine[i] frame[i] (window_sum.2.1 _ (List.getElem_mem _)) hm).1]

theorem back_32 (frame : List Int) (hx : ∀ x ∈ frame, -2 ^ 31 ≤ x ∧ x < 2 ^ 31) : ∀ v ∈ backFrame frame, -2 ^ 31 ≤ v ∧ v < 2 ^ 31 := by
  intro v hv
  unfold backFrame windowed at hv
  obtain ⟨u, hu, rfl⟩ := List.mem_map.1 hv
  obtain ⟨i, hi, rfl⟩ := List.mem_iff_getElem.1 hu
  rw [List.getElem_zipWith]
  rw [List.length_zipWith] at hi
  have hm := hx _ (List.getElem_mem (show i < frame.length by omega))
  have := win_range raisedCosine[i] frame[i] (window_sum.2.1 _ (List.getElem_mem _)) hm
  rw [this.1]
  exact this.2

/-- The rounding of the four windowed samples. -/
theorem four_parts (x a b c d : Int) (hx : -2 ^ 31 < x ∧ x < 2 ^ 31) (h1 : 2 ^ 30 - 2 ≤ a + b + c + d) (h2 : a + b + c + d ≤ 2 ^ 30) :
    -20 ≤ 4 * (a * x / 2 ^ 32) + (4 * (b * x / 2 ^ 32) + (4 * (c * x / 2 ^ 32) + 4 * (d * x / 2 ^ 32))) - x ∧
    4 * (a * x / 2 ^ 32) + (4 * (b * x / 2 ^ 32) + (4 * (c * x / 2 ^ 32) + 4 * (d * x / 2 ^ 32))) - x ≤ 4 := by
  have f : ∀ u : Int, u * x / 2 ^ 32 * 2 ^ 32 ≤ u * x ∧ u * x < (u * x / 2 ^ 32 + 1) * 2 ^ 32 :=
    fun u => ⟨Int.ediv_mul_le _ (by norm_num), Int.lt_ediv_add_one_mul_self _ (by norm_num)⟩
  have fa := f a
  have fb := f b
  have fc := f c
  have fd := f d
  generalize a * x / 2 ^ 32 = A at *
  generalize b * x / 2 ^ 32 = B at *
  generalize c * x / 2 ^ 32 = C at *
  generalize d * x / 2 ^ 32 = D at *
  have s : (a + b + c + d) * x = a * x + b * x + c * x + d * x := by ring
  have near : 2 ^ 30 * x - 2 ^ 32 ≤ (a + b + c + d) * x ∧ (a + b + c + d) * x ≤ 2 ^ 30 * x + 2 ^ 32 := by
    generalize a + b + c + d = w at *
    constructor <;> nlinarith
  rw [s] at near
  constructor <;> omega

/-- **C91, unity gain.** If the spectrum is left alone, output block `k` is input block `k - 3`, sample by sample, within 20 units of
full scale 2 ^ 31, for every signal and every converter. -/
theorem C91_unity {S : Type} (ds : S → Int → Int → Int → S × Int) (s0 : S) (bs : List (List Int)) (hb : ∀ b ∈ bs, b.length = 384)
    (hd : ∀ v ∈ (downs ds s0 bs.flatten).2, -2 ^ 31 + 20 ≤ v ∧ v < 2 ^ 31 - 4) (k : Nat) (hk : k + 3 < bs.length) (j : Nat) (hj : j < 128) :
    ∃ block v x, (olaRun 128 (List.replicate 512 0) ((timeRun ds 128 ⟨List.replicate 512 0, s0⟩ bs).map backFrame))[k + 3]? = some block ∧
      block[j]? = some v ∧ (downs ds s0 bs.flatten).2[k * 128 + j]? = some x ∧ -20 ≤ v - x ∧ v - x ≤ 4 := by
  have hin := timeRun_spec ds 128 bs ⟨List.replicate 512 0, s0⟩ (List.length_replicate) hb
  have tlen : ∀ (bs : List (List Int)) (st : InSt S), (timeRun ds 128 st bs).length = bs.length := by
    intro bs
    induction bs with
    | nil => intro st; rfl
    | cons b bs ih => intro st; simp [timeRun, ih]
  have tl := tlen bs ⟨List.replicate 512 0, s0⟩
  generalize timeRun ds 128 ⟨List.replicate 512 0, s0⟩ bs = frames at *
  have dl : (downs ds s0 bs.flatten).2.length = bs.length * 128 := by
    have h3 : bs.flatten.length = 3 * (bs.length * 128) := by
      clear hin tl hk hd
      induction bs with
      | nil => rfl
      | cons b bs ih =>
        have := ih (fun c hc => hb c (by simp [hc]))
        have := hb b (by simp)
        simp only [List.flatten_cons, List.length_append, List.length_cons]
        omega
    exact (downs_append ds bs.flatten [] s0 _ h3).2
  generalize (downs ds s0 bs.flatten).2 = D at *
  simp only at hin
  obtain ⟨Z, hZ⟩ : ∃ Z : List Int, Z = List.replicate 512 0 ++ D := ⟨_, rfl⟩
  rw [← hZ] at hin
  have Zl : Z.length = 512 + bs.length * 128 := by rw [hZ, List.length_append, List.length_replicate, dl]
  have Zr : ∀ v ∈ Z, -2 ^ 31 ≤ v ∧ v < 2 ^ 31 := by
    intro v hv
    rw [hZ, List.mem_append] at hv
    rcases hv with q | q
    · rw [List.eq_of_mem_replicate q]; norm_num
    · have := hd v q; omega
  have fr : ∀ m, m < bs.length → ∃ f, frames[m]? = some f ∧ f.length = 512 ∧ (∀ v ∈ f, -2 ^ 31 ≤ v ∧ v < 2 ^ 31) ∧
      ∀ i, i < 512 → f.getD i 0 = Z.getD ((m + 1) * 128 + i) 0 := by
    intro m hm
    refine ⟨_, hin m hm, ?_, ?_, ?_⟩
    · rw [List.length_take, List.length_drop, Zl]; omega
    · intro v hv
      exact Zr v (List.mem_of_mem_drop (List.mem_of_mem_take hv))
    · intro i hi
      rw [List.getD_eq_getElem?_getD, List.getElem?_take_of_lt (by omega), List.getElem?_drop, List.getD_eq_getElem?_getD]
  have all : ∀ f ∈ frames, f.length = 512 ∧ ∀ v ∈ f, -2 ^ 31 ≤ v ∧ v < 2 ^ 31 := by
    intro f hf
    obtain ⟨m, hm, rfl⟩ := List.mem_iff_getElem.1 hf
    obtain ⟨g, hg, h1, h2, -⟩ := fr m (by omega)
    rw [List.getElem?_eq_getElem hm] at hg
    cases hg
    exact ⟨h1, h2⟩
  have hola := C91_overlap_add 128 (frames.map backFrame)
    (fun f hf => by obtain ⟨g, hg, rfl⟩ := List.mem_map.1 hf; exact back_len g (all g hg).1)
    (fun f hf => by obtain ⟨g, hg, rfl⟩ := List.mem_map.1 hf; exact back_32 g (all g hg).2) (k + 3) (by simpa [tl] using hk)
  have hx : k * 128 + j < D.length := by rw [dl]; nlinarith
  refine ⟨_, wrap32 (olaSum 128 ((frames.map backFrame).take (k + 3 + 1)).reverse j), D[k * 128 + j], hola, ?_, List.getElem?_eq_getElem hx, ?_⟩
  · rw [List.getElem?_map, List.getElem?_range hj]; rfl
  · have val : ∀ r, r ≤ 3 → (frames.map backFrame)[k + 3 - r]? = some (backFrame (frames.getD (k + 3 - r) [])) ∧
        (backFrame (frames.getD (k + 3 - r) [])).getD (j + 128 * r) 0 = 4 * (raisedCosine.getD (j + 128 * r) 0 / 2 * D[k * 128 + j] / 2 ^ 32) := by
      intro r hr
      obtain ⟨f, hf, h1, h2, h3⟩ := fr (k + 3 - r) (by omega)
      have ef : frames.getD (k + 3 - r) [] = f := by rw [List.getD_eq_getElem?_getD, hf]; rfl
      rw [ef, back_get f h1 h2 _ (by omega), h3 _ (by omega), List.getElem?_map, hf]
      refine ⟨rfl, ?_⟩
      have idx : (k + 3 - r + 1) * 128 + (j + 128 * r) = 512 + (k * 128 + j) := by omega
      have hz : Z.getD (512 + (k * 128 + j)) 0 = D[k * 128 + j] := by
        rw [hZ, List.getD_eq_getElem?_getD, List.getElem?_append_right (by rw [List.length_replicate]; omega), List.length_replicate, Nat.add_sub_cancel_left,
          List.getElem?_eq_getElem hx]
        rfl
      rw [idx, hz]
    obtain ⟨v0, e0⟩ := val 0 (by omega)
    obtain ⟨v1, e1⟩ := val 1 (by omega)
    obtain ⟨v2, e2⟩ := val 2 (by omega)
    obtain ⟨v3, e3⟩ := val 3 (by omega)
    have bl : ∀ f ∈ frames.map backFrame, f.length = 512 := by
      intro f hf; obtain ⟨g, hg, rfl⟩ := List.mem_map.1 hf; exact back_len g (all g hg).1
    have ml : (frames.map backFrame).length = bs.length := by rw [List.length_map, tl]
    obtain ⟨w1, w2⟩ := window_sum.2.2 j hj
    have hD := hd _ (List.getElem_mem hx)
    generalize D[k * 128 + j] = x at *
    generalize frames.map backFrame = fs at *
    have q : ∀ r, r ≤ 3 → ∀ g, fs[k + 3 - r]? = some g → (fs.take (k + 3 - r + 1)).reverse = g :: (fs.take (k + 3 - r)).reverse := by
      intro r hr g hg
      rw [take_succ_reverse fs _ (by omega)]
      rw [List.getElem?_eq_getElem (by omega)] at hg
      cases hg
      rfl
    have q0 := q 0 (by omega) _ v0
    have q1 := q 1 (by omega) _ v1
    have q2 := q 2 (by omega) _ v2
    have q3 := q 3 (by omega) _ v3
    simp only [Nat.sub_zero, show k + 3 - 1 = k + 2 by omega, show k + 3 - 2 = k + 1 by omega, show k + 3 - 3 = k by omega] at *
    have rest : olaSum 128 (fs.take k).reverse (j + 128 + 128 + 128 + 128) = 0 := by
      apply olaSum_past
      intro f hf
      have := bl f (List.mem_of_mem_take (List.mem_reverse.1 hf))
      omega
    rw [q0, olaSum, q1, olaSum, q2, olaSum, q3, olaSum, rest]
    rw [show j + 128 * 0 = j by omega] at e0
    rw [show j + 128 * 1 = j + 128 by omega] at e1
    rw [show j + 128 * 2 = j + 128 + 128 by omega] at e2
    rw [show j + 128 * 3 = j + 128 + 128 + 128 by omega] at e3
    rw [e0, e1, e2, e3, Int.add_zero]
    rw [show j + 256 = j + 128 + 128 by omega, show j + 384 = j + 128 + 128 + 128 by omega] at w1 w2
    have fp := four_parts x _ _ _ _ (by omega) w1 w2
    rw [wrap32_id (by omega) (by omega)]
    exact fp

/-- A signal that meets the hypotheses of `C91_unity`: five blocks of a ramp, and a converter that takes every third sample. -/
theorem C91_example : let bs : List (List Int) := (List.range 5).map fun k => (List.range 384).map fun i => ((k * 384 + i : Nat) : Int) * 1000
    (∀ b ∈ bs, b.length = 384) ∧ (∀ v ∈ (downs (fun (s : Unit) a _ _ => (s, a)) () bs.flatten).2, -2 ^ 31 + 20 ≤ v ∧ v < 2 ^ 31 - 4) ∧
    (downs (fun (s : Unit) a _ _ => (s, a)) () bs.flatten).2[130]? = some 390000 := by decide +kernel

end Verif.Audio

/-
Error of `RCSketch` relative to the rank itself: only compactions that move an odd number of items `≤ x` change the estimated
rank of `x`, and those are few compared with the number of such items that reached the level.
-/
import Mathlib.Algebra.Order.Field.Basic
import Mathlib.Data.Nat.Bitwise
import Mathlib.Order.Interval.Finset.Nat
import Mathlib.Tactic.FieldSimp
import Verif.Proofs.RCExp

set_option linter.unusedSectionVars false
set_option linter.unusedVariables false

namespace AQ
open Prog Spec

/-! ### Sums with arbitrary level weights -/

/-- `Σ_i c i * l[i]`. -/
def lsum (c : Nat → Nat) : List Nat → Nat
  | [] => 0
  | a :: l => c 0 * a + lsum (fun i => c (i + 1)) l

theorem lsum_set : ∀ (l : List Nat) (c : Nat → Nat) (h a b : Nat), l[h]? = some a →
    lsum c (l.set h b) + c h * a = lsum c l + c h * b := by
  intro l
  induction l with
  | nil => intro c h a b hh; simp at hh
  | cons d l ih =>
    intro c h a b hh
    cases h with
    | zero => simp at hh; subst hh; simp [lsum]; omega
    | succ h =>
      simp only [List.getElem?_cons_succ] at hh
      have := ih (fun i => c (i + 1)) h a b hh
      simp only [List.set_cons_succ, lsum]; omega

theorem lsum_append_zero : ∀ (l : List Nat) (c : Nat → Nat), lsum c (l ++ [0]) = lsum c l := by
  intro l
  induction l with
  | nil => intro c; simp [lsum]
  | cons a l ih => intro c; simp [lsum, ih]

theorem lsum_ge : ∀ (l : List Nat) (c : Nat → Nat) (h a : Nat), l[h]? = some a → c h * a ≤ lsum c l := by
  intro l
  induction l with
  | nil => intro c h a hh; simp at hh
  | cons d l ih =>
    intro c h a hh
    cases h with
    | zero => simp at hh; subst hh; simp [lsum]
    | succ h =>
      simp only [List.getElem?_cons_succ] at hh
      have := ih (fun i => c (i + 1)) h a hh
      simp only [lsum]; omega

theorem lsum_two_pow : ∀ (l : List Nat) (c : Nat → Nat) (e : Nat), (∀ i < l.length, c i = 2 ^ e * 2 ^ i) →
    lsum c l = 2 ^ e * wsum l := by
  intro l
  induction l with
  | nil => intro c e _; simp [lsum, wsum]
  | cons a l ih =>
    intro c e hc
    have h0 := hc 0 (by simp)
    have := ih (fun i => c (i + 1)) (e + 1) (fun i hi => by
      have := hc (i + 1) (by simpa using hi)
      rw [this, pow_succ, pow_succ]; ring)
    rw [lsum, wsum, this, h0, pow_succ, pow_zero]; ring

variable {K : Type} [Field K] [LinearOrder K] [IsStrictOrderedRing K] [FloatFmt K]

theorem rank_take {l : List (Fl K)} (hs : l.Pairwise (· ≤ ·)) (x : Fl K) (c : Nat) : rank (l.take c) x = min (rank l x) c := by
  induction l generalizing c with
  | nil => simp [rank]
  | cons a l ih =>
    cases c with
    | zero => simp [rank]
    | succ c =>
      have ih := ih hs.of_cons c
      simp only [rank, List.take_succ_cons, List.countP_cons] at *
      by_cases ha : a ≤ x
      · simp only [ha, decide_true, if_true, ih]; omega
      · have h0 : l.countP (fun y => decide (y ≤ x)) = 0 := by
          rw [List.countP_eq_zero]
          intro y hy
          simp only [decide_eq_true_eq]
          intro hyx; exact ha (((List.pairwise_cons.1 hs).1 y hy).trans hyx)
        simp only [ha, decide_false, Bool.false_eq_true, if_false, ih, h0]; omega

namespace RCSketch
variable {G : Fl K → Prop} {n k N : Nat}

/-- Level weights: `2^i` up to level `h`, nothing above. -/
def cw (h i : Nat) : Nat := if i ≤ h then 2 ^ i else 0
/-- Weight of the items compacted at level `i`: those of level `h` are counted with their weight before the compaction. -/
def dw (h i : Nat) : Nat := if i = h then 2 ^ h else 0

/-- The estimate that would result if level `h` were never compacted: items of the levels below with their weights, and
everything that ever reached level `h`. -/
def U (g : List (Fl K) → Nat) (h : Nat) (s : RCSketch K) (P : List (Frame K)) : Nat :=
  lsum (cw h) (s.buffers.map g) + (P.map (fun f => cw h f.lvl * g f.items)).sum +
    (s.log.map (fun e => dw h e.1 * g e.2)).sum

/-- Number of compactions at level `h` that moved an odd number of items `≤ x`. -/
def oddAt (x : Fl K) (h : Nat) (log : List (Nat × List (Fl K))) : Nat :=
  (log.map (fun e => if e.1 = h then rank e.2 x % 2 else 0)).sum

/-- Number of items `≤ x` moved by the compactions of level `h`. -/
def movedAt (x : Fl K) (h : Nat) (log : List (Nat × List (Fl K))) : Nat :=
  (log.map (fun e => if e.1 = h then rank e.2 x else 0)).sum

/-- `Σ 4^i` over the odd compactions below level `h`. -/
def oddVar (x : Fl K) (h : Nat) (log : List (Nat × List (Fl K))) : Nat :=
  (log.map (fun e => if e.1 < h then 4 ^ e.1 * (rank e.2 x % 2) else 0)).sum

theorem oddVar_succ (x : Fl K) (h : Nat) (log : List (Nat × List (Fl K))) :
    oddVar x (h + 1) log = oddVar x h log + 4 ^ h * oddAt x h log := by
  induction log with
  | nil => simp [oddVar, oddAt]
  | cons e log ih =>
    simp only [oddVar, oddAt, List.map_cons, List.sum_cons] at *
    rw [ih, Nat.mul_add]
    rcases lt_trichotomy e.1 h with h1 | h1 | h1
    · rw [if_pos (by omega), if_pos h1, if_neg (by omega)]; omega
    · rw [if_pos (by omega), if_neg (by omega), if_pos h1, h1]; omega
    · rw [if_neg (by omega), if_neg (by omega), if_neg (by omega)]; omega

theorem oddVar_zero (x : Fl K) (log : List (Nat × List (Fl K))) : oddVar x 0 log = 0 := by
  induction log with
  | nil => simp [oddVar]
  | cons e log ih => simp [oddVar]

theorem oddAt_le_moved (x : Fl K) (h : Nat) (log : List (Nat × List (Fl K))) : oddAt x h log ≤ movedAt x h log := by
  induction log with
  | nil => simp [oddAt, movedAt]
  | cons e log ih =>
    simp only [oddAt, movedAt, List.map_cons, List.sum_cons] at *
    split
    · have := Nat.mod_le (rank e.2 x) 2; omega
    · omega

theorem oddAt_cons (x : Fl K) (h j : Nat) (u : List (Fl K)) (log : List (Nat × List (Fl K))) :
    oddAt x h ((j, u) :: log) = (if j = h then rank u x % 2 else 0) + oddAt x h log := by simp [oddAt]

theorem movedAt_cons (x : Fl K) (h j : Nat) (u : List (Fl K)) (log : List (Nat × List (Fl K))) :
    movedAt x h ((j, u) :: log) = (if j = h then rank u x else 0) + movedAt x h log := by simp [movedAt]

theorem oddVar_cons (x : Fl K) (h j : Nat) (u : List (Fl K)) (log : List (Nat × List (Fl K))) :
    oddVar x h ((j, u) :: log) = (if j < h then 4 ^ j * (rank u x % 2) else 0) + oddVar x h log := by simp [oddVar]

theorem at_zero (x : Fl K) (h : Nat) (log : List (Nat × List (Fl K))) (hl : ∀ e ∈ log, e.1 ≠ h) :
    oddAt x h log = 0 ∧ movedAt x h log = 0 := by
  induction log with
  | nil => simp [oddAt, movedAt]
  | cons e log ih =>
    obtain ⟨h1, h2⟩ := ih (fun e he => hl e (by simp [he]))
    have := hl e (by simp)
    rw [← Prod.mk.eta (p := e), oddAt_cons, movedAt_cons, h1, h2, if_neg this, if_neg this]
    simp

/-! ### Steps -/

variable {g : List (Fl K) → Nat}

theorem U_ensure (hg : Additive g) (h : Nat) (s : RCSketch K) (j : Nat) (P : List (Frame K)) :
    U g h (s.ensureLevel j) P = U g h s P := by
  unfold U ensureLevel; split
  · simp [hg.nil, lsum_append_zero]
  · rfl

theorem U_pop (hg : Additive g) (h : Nat) (s : RCSketch K) (j : Nat) (P : List (Frame K)) :
    U g h s (⟨j, []⟩ :: P) = U g h s P := by simp [U, hg.nil]

theorem U_cons (h : Nat) (s : RCSketch K) (f : Frame K) (P : List (Frame K)) :
    U g h s (f :: P) = U g h s P + cw h f.lvl * g f.items := by simp [U]; omega

theorem U_setBuf (h : Nat) (s : RCSketch K) {j : Nat} {buf : List (Fl K)} (b : List (Fl K)) (P : List (Frame K))
    (hget : s.buffers[j]? = some buf) :
    U g h (s.setBuf j b) P + cw h j * g buf = U g h s P + cw h j * g b := by
  have := lsum_set (s.buffers.map g) (cw h) j (g buf) (g b) (by simp [hget])
  simp only [U, setBuf, List.map_set]; omega

theorem U_push (hg : Additive g) (h : Nat) (s : RCSketch K) {j : Nat} {buf : List (Fl K)} (items : List (Fl K)) (m : Nat)
    (P : List (Frame K)) (hget : s.buffers[j]? = some buf) :
    U g h (s.setBuf j (buf ++ items.take m)) (⟨j, items.drop m⟩ :: P) = U g h s (⟨j, items⟩ :: P) := by
  have h1 := U_setBuf (g := g) h s (buf ++ items.take m) (⟨j, items.drop m⟩ :: P) hget
  rw [hg.app] at h1
  have h2 : g items = g (items.take m) + g (items.drop m) := by rw [← hg.app, List.take_append_drop]
  rw [U_cons] at h1 ⊢
  rw [U_cons] at h1 ⊢
  simp only [h2] at h1 ⊢
  rw [Nat.mul_add] at h1 ⊢
  omega

theorem U_push_all (hg : Additive g) (h : Nat) (s : RCSketch K) {j : Nat} {buf : List (Fl K)} (items : List (Fl K))
    (P : List (Frame K)) (hget : s.buffers[j]? = some buf) :
    U g h (s.setBuf j (buf ++ items)) (⟨j, []⟩ :: P) = U g h s (⟨j, items⟩ :: P) := by
  have := U_push hg h s items items.length P hget
  simpa using this

theorem U_split (hg : Additive g) (h : Nat) (s : RCSketch K) {j ci : Nat} {buf out : List (Fl K)} (ctrs : List Nat)
    (P : List (Frame K)) (hget : s.buffers[j]? = some buf) :
    U g h (s.afterSplit j ci buf ctrs) (⟨j + 1, out⟩ :: P) + cw h j * g ((sorted id buf).drop ci) =
      U g h s P + cw h (j + 1) * g out + dw h j * g ((sorted id buf).drop ci) := by
  have h1 := U_setBuf (g := g) h s ((sorted id buf).take ci) P hget
  have h2 : g buf = g ((sorted id buf).take ci) + g ((sorted id buf).drop ci) := by
    rw [← hg.app, List.take_append_drop]; exact (hg.perm _ _ (sorted_perm id buf)).symm
  have h3 : U g h (s.afterSplit j ci buf ctrs) P =
      U g h (s.setBuf j ((sorted id buf).take ci)) P + dw h j * g ((sorted id buf).drop ci) := by
    simp [U, afterSplit, setBuf]; omega
  rw [U_cons, h3]
  rw [h2, Nat.mul_add] at h1
  simp only
  omega

/-- The two outcomes of a compaction: equal and opposite changes, nonzero only for an odd compaction below level `h`. -/
theorem flip_U (hG : ∀ y, G y → y ≠ .nan) {s : RCSketch K} {j m : Nat} {fast : Bool} {items buf : List (Fl K)}
    {rest : List (Frame K)} (hb : Base s (⟨j, items⟩ :: rest)) (hj : InR G k (bsize n k) N s (⟨j, items⟩ :: rest))
    (hN : N ≤ n) (hn : n < 2 ^ 32) (hget : s.buffers[j]? = some buf) (hm : m ≤ items.length)
    (hlen : buf.length + m = s.bufferSize) :
    ∃ (f : Bool → List (Fl K) × RCSketch K) (u : List (Fl K)),
      (s.setBuf j (buf ++ items.take m)).compactAt j fast .default = .flip (fun b => .ret (f b)) ∧
      (∀ b, (f b).2.log = (j, u) :: s.log) ∧
      ∀ x h, ∃ δ : ℤ, δ ^ 2 = ((if j < h then 4 ^ j * (rank u x % 2) else 0 : Nat) : ℤ) ∧
        (U (fun b => rank b x) h (f false).2 (⟨j + 1, (f false).1⟩ :: ⟨j, items.drop m⟩ :: rest) : ℤ) =
          U (fun b => rank b x) h s (⟨j, items⟩ :: rest) + δ ∧
        (U (fun b => rank b x) h (f true).2 (⟨j + 1, (f true).1⟩ :: ⟨j, items.drop m⟩ :: rest) : ℤ) =
          U (fun b => rank b x) h s (⟨j, items⟩ :: rest) - δ := by
  have hh : j < s.buffers.length := (List.getElem?_eq_some_iff.1 hget).1
  obtain ⟨c, hc1, hc2, hc3⟩ := hj.index hb hN hget hm hlen
  have hl : (buf ++ items.take m).length = s.bufferSize := by rw [List.length_append, List.length_take]; omega
  have hB := hb.hB
  obtain ⟨ci, ctrs, he⟩ := compactAt_default_eq (s.setBuf j (buf ++ items.take m)) j fast (buf ++ items.take m) (setBuf_get hh)
    (by
      intro y hy
      apply hG
      rcases List.mem_append.1 hy with h2 | h2
      · exact hj.good buf (List.mem_of_getElem? hget) y h2
      · exact hj.goodP ⟨j, items⟩ (by simp) y (List.mem_of_mem_take h2))
    (by intro _; rw [hl]; exact Nat.div_le_self _ _)
    (by intro _; exact ⟨c, hc1, by rw [hl]; change (trailingOnes c + 1) * s.k ≤ _; omega, by omega⟩)
  refine ⟨_, (sorted id (buf ++ items.take m)).drop ci, he, fun b => rfl, fun x h => ?_⟩
  set full := buf ++ items.take m with hfull
  have hw : ∀ b, U (fun b => rank b x) h ((s.setBuf j full).afterSplit j ci full ctrs)
      (⟨j + 1, everyOther b ((sorted id full).drop ci)⟩ :: ⟨j, items.drop m⟩ :: rest) +
        cw h j * rank ((sorted id full).drop ci) x =
      U (fun b => rank b x) h s (⟨j, items⟩ :: rest) + cw h (j + 1) * rank (everyOther b ((sorted id full).drop ci)) x +
        dw h j * rank ((sorted id full).drop ci) x := by
    intro b
    rw [U_split (additive_rank x) h _ ctrs _ (setBuf_get hh), U_push (additive_rank x) h s items m rest hget]
  have hsum := everyOther_sum (fun y => decide (y ≤ x)) ((sorted id full).drop ci)
  have hrk := everyOther_rank ((sorted_pairwise id full).sublist (List.drop_sublist ci _)) x
  have w0 := hw false
  have w1 := hw true
  generalize (sorted id full).drop ci = u at *
  simp only [rank] at hrk hsum w0 w1 ⊢
  generalize List.countP (fun y => decide (y ≤ x)) (everyOther false u) = a at *
  generalize List.countP (fun y => decide (y ≤ x)) (everyOther true u) = b at *
  generalize List.countP (fun y => decide (y ≤ x)) u = c0 at *
  have w0' : (_ : ℤ) = _ := congrArg Nat.cast w0
  have w1' : (_ : ℤ) = _ := congrArg Nat.cast w1
  push_cast at w0' w1'
  have e : (c0 : ℤ) = a + b := by omega
  by_cases hjh : j < h
  · have c1 : cw h j = 2 ^ j := if_pos hjh.le
    have c2 : cw h (j + 1) = 2 * 2 ^ j := by rw [cw, if_pos (by omega), pow_succ]; ring
    have c3 : dw h j = 0 := if_neg (by omega)
    refine ⟨2 ^ j * ((a : ℤ) - b), ?_, ?_, ?_⟩
    · rw [if_pos hjh, mul_pow, ← pow_mul, mul_comm j 2, pow_mul]
      have hsq : ((a : ℤ) - b) ^ 2 = ((c0 % 2 : Nat) : ℤ) := by
        rcases Nat.mod_two_eq_zero_or_one c0 with h0 | h0
        · have : a = b := by omega
          rw [this, h0]; norm_num
        · have h1 : (a : ℤ) - b = 1 ∨ (a : ℤ) - b = -1 := by omega
          rw [h0]
          rcases h1 with h1 | h1 <;> rw [h1] <;> norm_num
      rw [hsq]; push_cast; norm_num
    · rw [c1, c2, c3, e] at w0'; push_cast at w0'; linarith
    · rw [c1, c2, c3, e] at w1'; push_cast at w1'; linarith
  · refine ⟨0, by simp [hjh], ?_, ?_⟩
    all_goals
      have c2 : cw h (j + 1) = 0 := if_neg (by omega)
      have c3 : cw h j = dw h j := by
        unfold cw dw
        by_cases h1 : j = h
        · subst h1; simp
        · rw [if_neg (by omega), if_neg h1]
      rw [c2, c3] at w0' w1'
      push_cast at w0' w1'
      linarith

theorem U_start (h : Nat) (s : RCSketch K) (c : List (Fl K)) : U g h s [⟨0, c⟩] = U g h s [] + g c := by
  rw [U_cons]; simp [cw]

theorem U_super (hn : n < 2 ^ 32) (x : Fl K) (h : Nat) (σ : ℚ) :
    HistSuper (K := K) (· ≠ .nan) n k (fun _ m => m = .default)
      (fun l s P => σ * ((U (fun b => rank b x) h s P : ℚ) - rank l x)) where
  good fast m hm := hm ▸ goodFor_default (fun _ h => h)
  super l fast m hm hl :=
    { ensure := fun s j items rest hb hj hlen => by rw [U_ensure (additive_rank x)]
      pop := fun s j rest hb hj hlen => by rw [U_pop (additive_rank x)]
      push := fun s j items rest buf hb hj hg hlen => by rw [U_push_all (additive_rank x) h s items rest hg]
      compact := fun s j items rest buf m' hb hj hg hm' hlen => by
        subst hm
        obtain ⟨f, u, he, -, hf⟩ := flip_U (fast := fast) (fun _ h => h) hb hj hl hn hg hm' hlen
        obtain ⟨δ, -, h0, h1⟩ := hf x h
        rw [he, exp_flip]
        simp only [exp_ret]
        have h0' : (_ : ℚ) = _ := congrArg Int.cast h0
        have h1' : (_ : ℚ) = _ := congrArg Int.cast h1
        push_cast at h0' h1'
        rw [h0', h1']
        apply le_of_eq; ring }
  start l c s := by rw [U_start, rank_append]; push_cast; apply le_of_eq; ring
  cnt l s n := le_refl _

theorem U_var_super (hn : n < 2 ^ 32) (x : Fl K) (h : Nat) :
    HistSuper (K := K) (· ≠ .nan) n k (fun _ m => m = .default)
      (fun l s P => ((U (fun b => rank b x) h s P : ℚ) - rank l x) ^ 2 - oddVar x h s.log) where
  good fast m hm := hm ▸ goodFor_default (fun _ h => h)
  super l fast m hm hl :=
    { ensure := fun s j items rest hb hj hlen => by
        rw [U_ensure (additive_rank x)]
        have : (s.ensureLevel j).log = s.log := by unfold ensureLevel; split <;> rfl
        rw [this]
      pop := fun s j rest hb hj hlen => by rw [U_pop (additive_rank x)]
      push := fun s j items rest buf hb hj hg hlen => by
        rw [U_push_all (additive_rank x) h s items rest hg]
        exact le_refl _
      compact := fun s j items rest buf m' hb hj hg hm' hlen => by
        subst hm
        obtain ⟨f, u, he, hc, hf⟩ := flip_U (fast := fast) (fun _ h => h) hb hj hl hn hg hm' hlen
        obtain ⟨δ, hδ, h0, h1⟩ := hf x h
        rw [he, exp_flip]
        simp only [exp_ret, hc, oddVar_cons]
        have h0' : (_ : ℚ) = _ := congrArg Int.cast h0
        have h1' : (_ : ℚ) = _ := congrArg Int.cast h1
        have h2' : (_ : ℚ) = _ := congrArg Int.cast hδ
        rw [Int.cast_natCast] at h2'
        push_cast at h0' h1'
        rw [h0', h1', Nat.cast_add, ← h2']
        push_cast
        apply le_of_eq; ring }
  start l c s := by rw [U_start, rank_append]; push_cast; apply le_of_eq; ring
  cnt l s n := le_refl _


/-! ### Few odd compactions -/

theorem trailingOnesAux_spec (f : Nat) : ∀ c, c + 1 < 2 ^ f →
    ∃ q, c + 1 = 2 ^ (trailingOnesAux f c + 1) * q + 2 ^ trailingOnesAux f c := by
  induction f with
  | zero => intro c hc; simp at hc
  | succ f ih =>
    intro c hc
    rw [trailingOnesAux]
    split
    · rename_i h1
      obtain ⟨q, hq⟩ := ih (c / 2) (by rw [pow_succ] at hc; omega)
      refine ⟨q, ?_⟩
      have h2 : c + 1 = 2 * (c / 2 + 1) := by omega
      rw [h2, hq]
      generalize trailingOnesAux f (c / 2) = t
      rw [pow_succ _ (t + 1), pow_succ _ t]
      ring
    · exact ⟨c / 2, by simp; omega⟩

/-- Bits of a counter before and after a compaction: the trailing ones are cleared and the next bit is set. -/
theorem counter_bits {c : Nat} (hc : c + 1 < 2 ^ 32) :
    (c.testBit (trailingOnes c) = false) ∧ ((c + 1).testBit (trailingOnes c) = true) ∧
      (∀ i, trailingOnes c < i → (c + 1).testBit i = c.testBit i) := by
  obtain ⟨q, hq⟩ := trailingOnesAux_spec 32 c hc
  change c + 1 = 2 ^ (trailingOnes c + 1) * q + 2 ^ trailingOnes c at hq
  generalize trailingOnes c = t at *
  have hp : 0 < 2 ^ t := by positivity
  have hlt : 2 ^ t < 2 ^ (t + 1) := by rw [pow_succ]; omega
  have e0 : c = 2 ^ (t + 1) * q + (2 ^ t - 1) := by omega
  have b0 : ∀ i, c.testBit i = if i < t + 1 then (2 ^ t - 1).testBit i else q.testBit (i - (t + 1)) := by
    intro i; conv_lhs => rw [e0]
    exact Nat.testBit_two_pow_mul_add q (by omega) i
  have b1 : ∀ i, (c + 1).testBit i = if i < t + 1 then (2 ^ t).testBit i else q.testBit (i - (t + 1)) := by
    intro i; conv_lhs => rw [hq]
    exact Nat.testBit_two_pow_mul_add q hlt i
  refine ⟨?_, ?_, ?_⟩
  · rw [b0, if_pos (by omega), Nat.testBit_two_pow_sub_one]; simp
  · rw [b1, if_pos (by omega)]; simp
  · intro i hi; rw [b0, b1, if_neg (by omega), if_neg (by omega)]

/-- Set bits of the counter whose section reaches into the `m` smallest items of a buffer of size `B`. -/
def credit (B k c m : Nat) : Finset Nat :=
  (Finset.range 64).filter (fun i => c.testBit i = true ∧ B ≤ m + (i + 1) * k)

theorem credit_mono {B k c m m' : Nat} (h : m ≤ m') : (credit B k c m).card ≤ (credit B k c m').card := by
  apply Finset.card_le_card
  intro i hi
  simp only [credit, Finset.mem_filter] at hi ⊢
  exact ⟨hi.1, hi.2.1, by omega⟩

theorem trailingOnes_lt {c : Nat} (hc : c + 1 < 2 ^ 32) : trailingOnes c < 64 := by
  have h1 := trailingOnes_le c
  by_contra h
  have : 2 ^ 32 ≤ 2 ^ trailingOnes c := Nat.pow_le_pow_right (by norm_num) (by omega)
  omega

/-- A compaction that moves `m - ci` of the `m` smallest items pays for itself. -/
theorem credit_step {B k c m ci : Nat} (hk : 1 ≤ k) (hc : c + 1 < 2 ^ 32) (hci : ci + (trailingOnes c + 1) * k = B) :
    k * (credit B k c m).card + k * (if ci < m then 1 else 0) ≤ (m - ci) + k * (credit B k (c + 1) (min m ci)).card := by
  obtain ⟨h1, h2, h3⟩ := counter_bits hc
  have ht := trailingOnes_lt hc
  generalize trailingOnes c = t at *
  have hmul : ∀ i, i < t → (i + 1) * k + k ≤ (t + 1) * k := by
    intro i hi
    have : (i + 1 + 1) * k ≤ (t + 1) * k := Nat.mul_le_mul_right _ (by omega)
    rw [Nat.add_mul (i + 1) 1 k] at this; omega
  by_cases hm : ci < m
  · rw [if_pos hm, min_eq_right hm.le]
    set A := (Finset.range t).filter (fun i => B ≤ m + (i + 1) * k) with hA
    set C := (Finset.range 64).filter (fun i => c.testBit i = true ∧ t < i) with hC
    have s1 : credit B k c m ⊆ A ∪ C := by
      intro i hi
      simp only [credit, Finset.mem_filter, Finset.mem_union, hA, hC, Finset.mem_range] at hi ⊢
      rcases lt_trichotomy i t with h | h | h
      · exact Or.inl ⟨h, hi.2.2⟩
      · subst h; rw [h1] at hi; simp at hi
      · exact Or.inr ⟨hi.1, hi.2.1, h⟩
    have s2 : insert t C ⊆ credit B k (c + 1) ci := by
      intro i hi
      rw [Finset.mem_insert] at hi
      simp only [credit, Finset.mem_filter, hC, Finset.mem_range] at hi ⊢
      rcases hi with rfl | ⟨h4, h5, h6⟩
      · exact ⟨ht, h2, by omega⟩
      · refine ⟨h4, by rw [h3 i h6]; exact h5, ?_⟩
        have : (t + 1) * k ≤ (i + 1) * k := Nat.mul_le_mul_right _ (by omega)
        omega
    have c1 : (credit B k c m).card ≤ A.card + C.card := (Finset.card_le_card s1).trans (Finset.card_union_le _ _)
    have c2 : C.card + 1 ≤ (credit B k (c + 1) ci).card := by
      rw [← Finset.card_insert_of_notMem (a := t) (s := C) (by simp [hC])]
      exact Finset.card_le_card s2
    have s3 : A ⊆ Finset.Ico (t - (m - ci) / k) t := by
      intro i hi
      simp only [hA, Finset.mem_filter, Finset.mem_range, Finset.mem_Ico] at hi ⊢
      obtain ⟨h4, h5⟩ := hi
      refine ⟨?_, h4⟩
      have h6 : t - i ≤ (m - ci) / k := by
        rw [Nat.le_div_iff_mul_le hk, Nat.sub_mul]
        rw [Nat.add_mul, one_mul] at h5 hci
        omega
      omega
    have c3 : A.card ≤ (m - ci) / k := by
      have := Finset.card_le_card s3
      rw [Nat.card_Ico] at this
      exact this.trans (by generalize (m - ci) / k = z; omega)
    have c4 : k * A.card ≤ m - ci := (Nat.mul_le_mul_left k c3).trans (Nat.mul_div_le _ _)
    have c5 := Nat.mul_le_mul_left k c1
    have c6 := Nat.mul_le_mul_left k c2
    rw [Nat.mul_add] at c5 c6
    omega
  · rw [if_neg hm, min_eq_left (by omega)]
    have s1 : credit B k c m ⊆ credit B k (c + 1) m := by
      intro i hi
      simp only [credit, Finset.mem_filter, Finset.mem_range] at hi ⊢
      refine ⟨hi.1, ?_, hi.2.2⟩
      rcases lt_trichotomy i t with h | h | h
      · have := hmul i h; omega
      · subst h; exact h2
      · rw [h3 i h]; exact hi.2.1
    have := Nat.mul_le_mul_left k (Finset.card_le_card s1)
    omega

/-- What is left over at the end. -/
theorem credit_le {B k c m J : Nat} (hk : 1 ≤ k) (hc : c < 2 ^ J) (hJ : (J + 1) * k ≤ B) :
    k * (credit B k c m).card ≤ m := by
  have s1 : credit B k c m ⊆ Finset.Ico (J - m / k) J := by
    intro i hi
    simp only [credit, Finset.mem_filter, Finset.mem_range, Finset.mem_Ico] at hi ⊢
    have h1 : i < J := by
      by_contra h
      have := Nat.testBit_lt_two_pow (hc.trans_le (Nat.pow_le_pow_right (by norm_num) (by omega : J ≤ i)))
      rw [this] at hi; simp at hi
    refine ⟨?_, h1⟩
    have h6 : J - i ≤ m / k := by
      rw [Nat.le_div_iff_mul_le hk, Nat.sub_mul]
      have := hi.2.2
      rw [Nat.add_mul, one_mul] at this hJ
      omega
    omega
  have := Finset.card_le_card s1
  rw [Nat.card_Ico] at this
  have h2 : (credit B k c m).card ≤ m / k := this.trans (by generalize m / k = z; omega)
  exact (Nat.mul_le_mul_left k h2).trans (Nat.mul_div_le _ _)

/-- Facts about a level that hold whatever kind of compaction is used. -/
structure Odd (x : Fl K) (s : RCSketch K) : Prop where
  lvl : ∀ e ∈ s.log, ∃ c, s.compactions[e.1]? = some c ∧ c ≠ 0
  imp : ∀ (h : Nat) (buf : List (Fl K)), s.buffers[h]? = some buf → oddAt x h s.log ≠ 0 → s.bufferSize / 2 < rank buf x + movedAt x h s.log

/-- Without fast compactions the odd ones are paid for by the items moved. -/
structure Amo (x : Fl K) (s : RCSketch K) : Prop where
  half : ∀ (h : Nat) (buf : List (Fl K)) (c : Nat), s.buffers[h]? = some buf → s.counters[h]? = some c → c ≠ 0 → s.bufferSize / 2 ≤ buf.length
  amo : ∀ (h : Nat) (buf : List (Fl K)) (c : Nat), s.buffers[h]? = some buf → s.counters[h]? = some c →
    s.k * oddAt x h s.log ≤ movedAt x h s.log + s.k * (credit s.bufferSize s.k c (rank buf x)).card

theorem Odd.not_mem {x : Fl K} {s : RCSketch K} (ho : Odd x s) {h : Nat} (hh : s.compactions.length ≤ h) :
    ∀ e ∈ s.log, e.1 ≠ h := by
  rintro e he rfl
  obtain ⟨c, h1, -⟩ := ho.lvl e he
  rw [List.getElem?_eq_none hh] at h1; simp at h1

theorem ensure_fields (s : RCSketch K) {h : Nat} (hl : s.buffers.length = h) : (s.ensureLevel h).log = s.log ∧
    (s.ensureLevel h).bufferSize = s.bufferSize ∧ (s.ensureLevel h).k = s.k ∧
    (s.ensureLevel h).buffers = s.buffers ++ [[]] ∧ (s.ensureLevel h).counters = s.counters ++ [0] ∧
    (s.ensureLevel h).compactions = s.compactions ++ [0] := by
  unfold ensureLevel; rw [if_pos hl.le]; simp

theorem getElem?_append_one {α : Type} {l : List α} {a b : α} {j : Nat} (h : (l ++ [a])[j]? = some b) :
    l[j]? = some b ∨ (j = l.length ∧ b = a) := by
  rcases Nat.lt_or_ge j l.length with h1 | h1
  · rw [List.getElem?_append_left h1] at h; exact Or.inl h
  · rw [List.getElem?_append_right h1] at h
    rcases Nat.eq_zero_or_pos (j - l.length) with h0 | h0
    · rw [h0] at h; simp at h; exact Or.inr ⟨by omega, h.symm⟩
    · rw [List.getElem?_eq_none (by simp; omega)] at h; simp at h

theorem Odd.ensure {x : Fl K} {s : RCSketch K} {h : Nat} {P : List (Frame K)} (hb : Base s P) (ho : Odd x s)
    (hl : s.buffers.length = h) : Odd x (s.ensureLevel h) := by
  obtain ⟨e1, e2, e3, e4, e5, e6⟩ := ensure_fields s hl
  refine ⟨?_, ?_⟩
  · rw [e1, e6]
    intro e he
    obtain ⟨c, h1, h2⟩ := ho.lvl e he
    refine ⟨c, ?_, h2⟩
    rw [List.getElem?_append_left (List.getElem?_eq_some_iff.1 h1).1]; exact h1
  · rw [e1, e2, e4]
    intro j buf hj hne
    rcases getElem?_append_one hj with h1 | ⟨h1, -⟩
    · exact ho.imp j buf h1 hne
    · exact absurd (at_zero x j s.log (ho.not_mem (by rw [hb.hg]; omega))).1 hne

theorem Amo.ensure {x : Fl K} {s : RCSketch K} {h : Nat} {P : List (Frame K)} (hb : Base s P) (ho : Odd x s) (ha : Amo x s)
    (hl : s.buffers.length = h) : Amo x (s.ensureLevel h) := by
  obtain ⟨e1, e2, e3, e4, e5, e6⟩ := ensure_fields s hl
  have hc := hb.hc
  refine ⟨?_, ?_⟩
  · rw [e2, e4, e5]
    intro j buf c hj hjc hne
    rcases getElem?_append_one hjc with h2 | ⟨h2, rfl⟩
    · rcases getElem?_append_one hj with h1 | ⟨h1, -⟩
      · exact ha.half j buf c h1 h2 hne
      · rw [List.getElem?_eq_none (by omega)] at h2; simp at h2
    · simp at hne
  · rw [e1, e2, e3, e4, e5]
    intro j buf c hj hjc
    rcases getElem?_append_one hjc with h2 | ⟨h2, rfl⟩
    · rcases getElem?_append_one hj with h1 | ⟨h1, -⟩
      · exact ha.amo j buf c h1 h2
      · rw [List.getElem?_eq_none (by omega)] at h2; simp at h2
    · rw [(at_zero x j s.log (ho.not_mem (by rw [hb.hg]; omega))).1]; simp

theorem rank_append_ge (a b : List (Fl K)) (x : Fl K) : rank a x ≤ rank (a ++ b) x := by rw [rank_append]; omega

theorem Odd.push {x : Fl K} {s : RCSketch K} {h : Nat} {items buf : List (Fl K)} (ho : Odd x s)
    (hget : s.buffers[h]? = some buf) : Odd x (s.setBuf h (buf ++ items)) := by
  have hh : h < s.buffers.length := (List.getElem?_eq_some_iff.1 hget).1
  refine ⟨ho.lvl, ?_⟩
  intro j b hj hne
  change s.bufferSize / 2 < rank b x + movedAt x j s.log
  simp only [setBuf, set_get _ _ _ _ hh] at hj
  split at hj
  · rename_i e
    subst e
    simp only [Option.some.injEq] at hj; subst hj
    have := ho.imp j buf hget hne
    have := rank_append_ge buf items x
    omega
  · exact ho.imp j b hj hne

theorem Amo.push {x : Fl K} {s : RCSketch K} {h : Nat} {items buf : List (Fl K)} (ha : Amo x s)
    (hget : s.buffers[h]? = some buf) : Amo x (s.setBuf h (buf ++ items)) := by
  have hh : h < s.buffers.length := (List.getElem?_eq_some_iff.1 hget).1
  refine ⟨?_, ?_⟩
  · intro j b c hj hc hne
    change s.bufferSize / 2 ≤ b.length
    simp only [setBuf, set_get _ _ _ _ hh] at hj
    split at hj
    · rename_i e
      subst e
      simp only [Option.some.injEq] at hj; subst hj
      have := ha.half j buf c hget hc hne
      simp; omega
    · exact ha.half j b c hj hc hne
  · intro j b c hj hc
    change s.k * oddAt x j s.log ≤ movedAt x j s.log + s.k * (credit s.bufferSize s.k c (rank b x)).card
    simp only [setBuf, set_get _ _ _ _ hh] at hj
    split at hj
    · rename_i e
      subst e
      simp only [Option.some.injEq] at hj; subst hj
      have h1 := ha.amo j buf c hget hc
      have h2 := Nat.mul_le_mul_left s.k (credit_mono (B := s.bufferSize) (k := s.k) (c := c) (rank_append_ge buf items x))
      omega
    · exact ha.amo j b c hj hc

theorem split_fields (s : RCSketch K) (h ci : Nat) (full : List (Fl K)) (ctrs : List Nat) (hh : h < s.buffers.length) :
    ∀ j, ((s.setBuf h full).afterSplit h ci full ctrs).buffers[j]? =
      if j = h then some ((sorted id full).take ci) else s.buffers[j]? := by
  intro j
  simp only [afterSplit, setBuf, List.set_set]
  exact set_get _ _ _ _ hh

theorem rank_split (full : List (Fl K)) (ci : Nat) (x : Fl K) :
    rank ((sorted id full).take ci) x = min (rank full x) ci ∧ rank ((sorted id full).drop ci) x = rank full x - ci := by
  have h1 := rank_take (sorted_pairwise id full) x ci
  have h2 : rank (sorted id full) x = rank full x := (sorted_perm id full).countP_eq _
  have h3 : rank ((sorted id full).take ci) x + rank ((sorted id full).drop ci) x = rank (sorted id full) x := by
    rw [← rank_append, List.take_append_drop]
  rw [h2] at h1 h3
  omega

theorem Odd.compact {x : Fl K} {s : RCSketch K} {h m : Nat} {fast : Bool} {meth : CompactionMethod} {items buf : List (Fl K)}
    {rest : List (Frame K)} {r : List (Fl K) × RCSketch K} (ho : Odd x s) (hb : Base s (⟨h, items⟩ :: rest))
    (hI : InR G k (bsize n k) N s (⟨h, items⟩ :: rest)) (hN : N ≤ n)
    (hget : s.buffers[h]? = some buf) (hm : m ≤ items.length) (hlen : buf.length + m = s.bufferSize)
    (hr : CompactRel (s.setBuf h (buf ++ items.take m)) h fast meth (buf ++ items.take m) r) : Odd x r.2 := by
  obtain ⟨ci, ctrs, out, hi, hci, -, -, rfl⟩ := hr
  have hh : h < s.buffers.length := (List.getElem?_eq_some_iff.1 hget).1
  have hhalf := hI.half_le hb hN hget hm hlen hi
  set full := buf ++ items.take m with hfull
  obtain ⟨r1, r2⟩ := rank_split full ci x
  have hge : rank buf x ≤ rank full x := rank_append_ge _ _ _
  refine ⟨?_, ?_⟩
  · intro e he
    have hhc : h < s.compactions.length := by rw [hb.hg]; exact hh
    simp only [afterSplit, setBuf, List.mem_cons] at he ⊢
    rcases he with rfl | he
    · exact ⟨s.compactions.getD h 0 + 1, by simp [hhc], by omega⟩
    · obtain ⟨c, h1, h2⟩ := ho.lvl e he
      by_cases e1 : e.1 = h
      · rw [e1]; exact ⟨s.compactions.getD h 0 + 1, by simp [hhc], by omega⟩
      · exact ⟨c, by rw [List.getElem?_set_ne (Ne.symm e1)]; exact h1, h2⟩
  · intro j b hj hne
    rw [split_fields s h ci full ctrs hh] at hj
    change s.bufferSize / 2 < rank b x + movedAt x j ((h, (sorted id full).drop ci) :: s.log)
    change oddAt x j ((h, (sorted id full).drop ci) :: s.log) ≠ 0 at hne
    rw [oddAt_cons] at hne
    rw [movedAt_cons]
    by_cases e : j = h
    · subst e
      simp only [if_true, Option.some.injEq] at hj hne ⊢; subst hj
      rw [r1, r2]; rw [r2] at hne
      by_cases h0 : oddAt x j s.log = 0
      · rw [h0] at hne
        have : rank full x - ci ≠ 0 := by intro h1; rw [h1] at hne; simp at hne
        omega
      · have := ho.imp j buf hget h0
        omega
    · rw [if_neg e] at hj
      rw [if_neg (Ne.symm e)] at hne ⊢
      have := ho.imp j b hj (by omega)
      omega

theorem Amo.compact {x : Fl K} {s : RCSketch K} {h m : Nat} {meth : CompactionMethod} {items buf : List (Fl K)}
    {rest : List (Frame K)} {r : List (Fl K) × RCSketch K} (ha : Amo x s) (hb : Base s (⟨h, items⟩ :: rest))
    (hI : InR G k (bsize n k) N s (⟨h, items⟩ :: rest)) (hN : N ≤ n)
    (hget : s.buffers[h]? = some buf) (hm : m ≤ items.length) (hlen : buf.length + m = s.bufferSize)
    (hr : CompactRel (s.setBuf h (buf ++ items.take m)) h false meth (buf ++ items.take m) r) : Amo x r.2 := by
  obtain ⟨ci, ctrs, out, hi, hci, -, -, rfl⟩ := hr
  have hh : h < s.buffers.length := (List.getElem?_eq_some_iff.1 hget).1
  have hhalf := hI.half_le hb hN hget hm hlen hi
  set full := buf ++ items.take m with hfull
  have hfl : full.length = s.bufferSize := by rw [hfull, List.length_append, List.length_take]; omega
  have hsl : (sorted id full).length = s.bufferSize := by rw [(sorted_perm id full).length_eq, hfl]
  obtain ⟨r1, r2⟩ := rank_split full ci x
  have hge : rank buf x ≤ rank full x := rank_append_ge _ _ _
  simp only [IsIndex, Bool.false_eq_true, if_false] at hi
  obtain ⟨c, hc, hci2, h32, rfl⟩ := hi
  change s.counters[h]? = some c at hc
  change ci + (trailingOnes c + 1) * s.k = full.length at hci2
  rw [hfl] at hci2
  have hhc : h < s.counters.length := by rw [hb.hc]; exact hh
  have hctr : ∀ j, (s.counters.set h (c + 1))[j]? = if j = h then some (c + 1) else s.counters[j]? := by
    intro j
    by_cases e : j = h
    · subst e; simp [hhc]
    · rw [if_neg e, List.getElem?_set_ne (Ne.symm e)]
  refine ⟨?_, ?_⟩
  · intro j b c' hj hjc hne
    rw [split_fields s h ci full _ hh] at hj
    change (s.counters.set h (c + 1))[j]? = some c' at hjc
    rw [hctr] at hjc
    change s.bufferSize / 2 ≤ b.length
    by_cases e : j = h
    · rw [if_pos e] at hj
      simp only [Option.some.injEq] at hj; subst hj
      rw [List.length_take, hsl]; omega
    · rw [if_neg e] at hj hjc
      exact ha.half j b c' hj hjc hne
  · intro j b c' hj hjc
    rw [split_fields s h ci full _ hh] at hj
    change (s.counters.set h (c + 1))[j]? = some c' at hjc
    rw [hctr] at hjc
    change s.k * oddAt x j ((h, (sorted id full).drop ci) :: s.log) ≤ movedAt x j ((h, (sorted id full).drop ci) :: s.log) +
      s.k * (credit s.bufferSize s.k c' (rank b x)).card
    rw [oddAt_cons, movedAt_cons]
    by_cases e : j = h
    · subst e
      simp only [if_true, Option.some.injEq] at hj hjc ⊢
      subst hj; subst hjc
      rw [r1, r2]
      have h1 := ha.amo j buf c hget hc
      have h2 := Nat.mul_le_mul_left s.k (credit_mono (B := s.bufferSize) (k := s.k) (c := c) hge)
      have h3 := credit_step (m := rank full x) hb.hk h32 hci2
      rw [Nat.mul_add]
      have h4 : s.k * ((rank full x - ci) % 2) ≤ s.k * (if ci < rank full x then 1 else 0) := by
        apply Nat.mul_le_mul_left
        split
        · omega
        · rw [show rank full x - ci = 0 by omega]
      omega
    · rw [if_neg e] at hj hjc
      simp only [if_neg (Ne.symm e)]
      have := ha.amo j b c' hj hjc
      simpa using this


/-! ### Histories -/

theorem odd_closed (x : Fl K) (fast : Bool) (m : CompactionMethod) (hG : GoodFor G m) (hN : N ≤ n) :
    Closed fast m (fun s P => InR G k (bsize n k) N s P ∧ Odd x s) where
  ensure s h items rest hb hj hl := ⟨(InR.closed hG fast hN).ensure s h items rest hb hj.1 hl, hj.2.ensure hb hl⟩
  pop s h rest hb hj hl := ⟨(InR.closed hG fast hN).pop s h rest hb hj.1 hl, hj.2⟩
  push s h items rest buf hb hj hg hl := ⟨(InR.closed hG fast hN).push s h items rest buf hb hj.1 hg hl, hj.2.push hg⟩
  compact s h items rest buf n' r hb hj hg hn hl hr :=
    ⟨(InR.closed hG fast hN).compact s h items rest buf n' r hb hj.1 hg hn hl hr,
      hj.2.compact hb hj.1 hN hg hn hl hr⟩

theorem amo_closed (x : Fl K) (m : CompactionMethod) (hG : GoodFor G m) (hN : N ≤ n) :
    Closed false m (fun s P => InR G k (bsize n k) N s P ∧ (Odd x s ∧ Amo x s)) where
  ensure s h items rest hb hj hl :=
    ⟨(InR.closed hG false hN).ensure s h items rest hb hj.1 hl, hj.2.1.ensure hb hl, hj.2.2.ensure hb hj.2.1 hl⟩
  pop s h rest hb hj hl := ⟨(InR.closed hG false hN).pop s h rest hb hj.1 hl, hj.2⟩
  push s h items rest buf hb hj hg hl :=
    ⟨(InR.closed hG false hN).push s h items rest buf hb hj.1 hg hl, hj.2.1.push hg, hj.2.2.push hg⟩
  compact s h items rest buf n' r hb hj hg hn hl hr :=
    ⟨(InR.closed hG false hN).compact s h items rest buf n' r hb hj.1 hg hn hl hr,
      hj.2.1.compact hb hj.1 hN hg hn hl hr, hj.2.2.compact hb hj.1 hN hg hn hl hr⟩

/-- Cost of an odd compaction in items moved: `1`, or `k` without fast compactions. -/
theorem odd_paid (n k : Nat) (ops : List (InsOp K)) (hm : ∀ o ∈ ops, o.method = .default)
    (hlen : (insItems ops).length ≤ n) (hnan : ∀ y ∈ insItems ops, y ≠ .nan) (x : Fl K) :
    Partially (runHist n k ops) (fun s => Odd x s ∧ ((∀ o ∈ ops, o.fast = false) →
      ∀ h buf, s.buffers[h]? = some buf → k * oddAt x h s.log ≤ rank buf x + movedAt x h s.log)) := by
  have hG : ∀ (m : CompactionMethod), m = .default → GoodFor (K := K) (· ≠ .nan) m :=
    fun m h => h ▸ goodFor_default (fun _ h => h)
  by_cases hf : ∀ o ∈ ops, o.fast = false
  · have hi := histInv_range (K := K) (n := n) (k := k) (G := (· ≠ .nan)) (ok := fun fast m => fast = false ∧ m = .default)
      (J := fun l s P => Odd x s ∧ Amo x s) (fun fast m h => hG m h.2)
      (fun l fast m hm hl => by obtain ⟨rfl, h2⟩ := hm; exact amo_closed x m (hG m h2) hl)
      (fun l c s _ _ hj => hj) (fun l s n hj => ⟨⟨hj.1.lvl, hj.1.imp⟩, ⟨hj.2.half, hj.2.amo⟩⟩)
    have h1 := hist_partially hi n k ops (fun o ho => ⟨hf o ho, hm o ho⟩) (fun h0 _ _ => ⟨InR.fresh h0,
      ⟨by simp [fresh], by simp [fresh]⟩, ⟨by simp [fresh], by simp [fresh]⟩⟩)
    refine h1.mono ?_
    rintro s ⟨hk, hb, hj, hst⟩
    obtain ⟨hI, ho, ha⟩ := hj hlen hnan
    refine ⟨ho, fun _ h buf hget => ?_⟩
    have hh : h < s.counters.length := by rw [hb.hc]; exact (List.getElem?_eq_some_iff.1 hget).1
    have hcg := List.getElem?_eq_getElem hh
    have h2 := ha.amo h buf _ hget hcg
    have h3 := ha.half h buf _ hget hcg
    generalize s.counters[h] = c at *
    obtain ⟨r, hr1, hr2⟩ := hI.flow
    have h4 := hr1 h c hcg
    have h5 := flow_le hr2 h
    rw [hget, Option.getD_some] at h5
    rw [hI.hk, hI.hB] at h2
    rw [hI.hB] at h3
    have hB := bsize_ge n k
    have hk1 : 1 ≤ k := by omega
    have h6 : c < 2 ^ Nat.clog 2 (n / k) := by
      by_cases hc0 : c = 0
      · subst hc0; positivity
      · have := h3 hc0
        have h7 : k * (c + 1) ≤ n := by rw [Nat.mul_add, Nat.mul_one]; omega
        have h8 : c + 1 ≤ n / k := by rw [Nat.le_div_iff_mul_le hk1, Nat.mul_comm]; exact h7
        have h9 := Nat.le_pow_clog (b := 2) (by norm_num) (n / k)
        omega
    have h7 : (Nat.clog 2 (n / k) + 1) * k ≤ bsize n k := by
      have : bsize n k = max (2 * k * Nat.clog 2 (n / k)) (2 * k) := rfl
      generalize Nat.clog 2 (n / k) = L at *
      rcases Nat.eq_zero_or_pos L with h0 | h0
      · subst h0; omega
      · have e1 : k * 1 ≤ k * L := Nat.mul_le_mul_left k h0
        have e2 : 2 * k * L = 2 * (k * L) := by ring
        have e3 : (L + 1) * k = k * L + k := by ring
        have := le_max_left (2 * k * L) (2 * k)
        omega
    have h8 := credit_le (m := rank buf x) hk1 h6 h7
    omega
  · have hi := histInv_range (K := K) (n := n) (k := k) (G := (· ≠ .nan)) (ok := fun _ m => m = .default)
      (J := fun l s P => Odd x s) (fun fast m h => hG m h) (fun l fast m hm hl => odd_closed x fast m (hG m hm) hl)
      (fun l c s _ _ hj => hj) (fun l s n hj => ⟨hj.lvl, hj.imp⟩)
    have h1 := hist_partially hi n k ops (fun o ho => hm o ho) (fun h0 _ _ => ⟨InR.fresh h0,
      ⟨by simp [fresh], by simp [fresh]⟩⟩)
    refine h1.mono ?_
    rintro s ⟨hk, hb, hj, hst⟩
    exact ⟨(hj hlen hnan).2, fun h => absurd h hf⟩

/-- Everything that reached level `h` is part of `U h`. -/
theorem U_ge (x : Fl K) (h : Nat) (s : RCSketch K) {buf : List (Fl K)} (hget : s.buffers[h]? = some buf) :
    2 ^ h * (rank buf x + movedAt x h s.log) ≤ U (fun b => rank b x) h s [] := by
  have h1 := lsum_ge (s.buffers.map (fun b => rank b x)) (cw h) h (rank buf x) (by simp [hget])
  rw [cw, if_pos (le_refl _)] at h1
  have h2 : ∀ log : List (Nat × List (Fl K)), 2 ^ h * movedAt x h log = (log.map (fun e => dw h e.1 * rank e.2 x)).sum := by
    intro log
    induction log with
    | nil => simp [movedAt]
    | cons e log ih =>
      rw [← Prod.mk.eta (p := e), movedAt_cons, Nat.mul_add, ih, List.map_cons, List.sum_cons, dw]
      by_cases e1 : e.1 = h
      · simp [e1]
      · simp [e1]
  rw [Nat.mul_add, h2]
  simp only [U, List.map_nil, List.sum_nil]
  omega

/-- The price per level: an odd compaction at level `h` needs more than `B/2` items `≤ x` there, and costs `κ` of them. -/
theorem odd_price {x : Fl K} {s : RCSketch K} {κ B : Nat} (ho : Odd x s) (hg : s.compactions.length = s.buffers.length)
    (hB : s.bufferSize = B) (h : Nat)
    (hκ : ∀ buf, s.buffers[h]? = some buf → κ * oddAt x h s.log ≤ rank buf x + movedAt x h s.log) :
    4 ^ h * (κ * B * oddAt x h s.log) ≤ 2 * (U (fun b => rank b x) h s []) ^ 2 := by
  rcases Nat.lt_or_ge h s.buffers.length with hh | hh
  · have hget : s.buffers[h]? = some s.buffers[h] := List.getElem?_eq_getElem hh
    have h1 := U_ge x h s hget
    have h2 := hκ _ hget
    have h3 := ho.imp h _ hget
    rw [hB] at h3
    generalize rank s.buffers[h] x + movedAt x h s.log = I at *
    generalize oddAt x h s.log = O at *
    generalize U (fun b => rank b x) h s [] = u at *
    have h4 : κ * B * O ≤ 2 * I ^ 2 := by
      rcases Nat.eq_zero_or_pos O with h0 | h0
      · subst h0; simp
      · have h5 := h3 (by omega)
        calc κ * B * O = (κ * O) * B := by ring
          _ ≤ I * (2 * I) := Nat.mul_le_mul h2 (by omega)
          _ = 2 * I ^ 2 := by ring
    calc 4 ^ h * (κ * B * O) ≤ 4 ^ h * (2 * I ^ 2) := Nat.mul_le_mul_left _ h4
      _ = 2 * (2 ^ h * I) ^ 2 := by rw [mul_pow, ← pow_mul, mul_comm h 2, pow_mul]; norm_num; ring
      _ ≤ 2 * u ^ 2 := Nat.mul_le_mul_left _ (Nat.pow_le_pow_left h1 2)
  · rw [(at_zero x h s.log (ho.not_mem (by omega))).1]; simp

theorem oddVar_eq (x : Fl K) (H : Nat) (log : List (Nat × List (Fl K))) (hl : ∀ e ∈ log, e.1 < H) :
    ∀ j, oddVar x (H + j) log = oddVar x H log := by
  intro j
  induction j with
  | zero => rfl
  | succ j ih =>
    rw [← Nat.add_assoc, oddVar_succ, ih, (at_zero x (H + j) log (fun e he => by have := hl e he; omega)).1]
    simp

/-- With no compaction at level `H` or above, `U H` is the estimate. -/
theorem U_eq_weighted (x : Fl K) (H : Nat) (s : RCSketch K) (hlen : s.buffers.length ≤ H + 1) (hl : ∀ e ∈ s.log, e.1 < H) :
    U (fun b => rank b x) H s [] = weightedRank s.buffers x := by
  have h1 : lsum (cw H) (s.buffers.map (fun b => rank b x)) = wsum (s.buffers.map (fun b => rank b x)) := by
    have := lsum_two_pow (s.buffers.map (fun b => rank b x)) (cw H) 0 (fun i hi => by
      rw [List.length_map] at hi
      rw [cw, if_pos (by omega)]; simp)
    simpa using this
  have h2 : (s.log.map (fun e => dw H e.1 * rank e.2 x)).sum = 0 := by
    rw [List.sum_eq_zero]
    intro a ha
    obtain ⟨e, he, rfl⟩ := List.mem_map.1 ha
    rw [dw, if_neg (by have := hl e he; omega), Nat.zero_mul]
  simp only [U, List.map_nil, List.sum_nil, h1, h2]
  simp [weightedRank]

/-- The recursion for the variance: `v (h+1) ≤ v h + y (R² + v h)`. -/
theorem relative_rec (v : Nat → ℚ) (R y : ℚ) (hy : 0 ≤ y) (h0 : v 0 ≤ 0) (hv : ∀ h, v (h + 1) ≤ v h + y * (R ^ 2 + v h)) :
    ∀ h, v h ≤ R ^ 2 * ((1 + y) ^ h - 1) := by
  intro h
  induction h with
  | zero => simpa using h0
  | succ h ih =>
    have := hv h
    have h1 : (1 + y) * v h ≤ (1 + y) * (R ^ 2 * ((1 + y) ^ h - 1)) := mul_le_mul_of_nonneg_left ih (by linarith)
    calc v (h + 1) ≤ (1 + y) * v h + y * R ^ 2 := by linarith
      _ ≤ (1 + y) * (R ^ 2 * ((1 + y) ^ h - 1)) + y * R ^ 2 := by linarith
      _ = R ^ 2 * ((1 + y) ^ (h + 1) - 1) := by ring

theorem one_add_pow_le (y : ℚ) (hy : 0 ≤ y) : ∀ m : Nat, 2 * (m * y) ≤ 1 → (1 + y) ^ m ≤ 1 + 2 * (m * y) := by
  intro m
  induction m with
  | zero => intro _; simp
  | succ m ih =>
    intro h
    push_cast at h ⊢
    have := ih (by nlinarith)
    rw [pow_succ]
    have h1 : (1 + y) ^ m * (1 + y) ≤ (1 + 2 * (m * y)) * (1 + y) := mul_le_mul_of_nonneg_right this (by linarith)
    nlinarith

/-- Mean squared error with price `κ` per odd compaction, if only levels below `H` are compacted. -/
theorem relative_error (n k κ H : Nat) (hk : 1 ≤ k) (hκ : 1 ≤ κ) (hn : n < 2 ^ 32) (ops : List (InsOp K))
    (hm : ∀ o ∈ ops, o.method = .default) (hlen : (insItems ops).length ≤ n) (hnan : ∀ y ∈ insItems ops, y ≠ .nan) (x : Fl K)
    (hprice : Partially (runHist n k ops) (fun s => ∀ h buf, s.buffers[h]? = some buf →
      κ * oddAt x h s.log ≤ rank buf x + movedAt x h s.log))
    (hH : Partially (runHist n k ops) (fun s => s.buffers.length ≤ H + 1 ∧
      ∀ (h c : Nat), s.compactions[h]? = some c → c ≠ 0 → h < H)) :
    exp (runHist n k ops) (fun s => ((weightedRank s.buffers x : ℚ) - rank (insItems ops) x) ^ 2) ≤
      (rank (insItems ops) x : ℚ) ^ 2 * ((1 + 2 / (κ * bsize n k : Nat)) ^ H - 1) := by
  set R : ℚ := ((rank (insItems ops) x : Nat) : ℚ) with hR
  have hodd := odd_paid n k ops hm hlen hnan x
  have hal : Always (runHist n k ops) (fun _ => True) :=
    (runHist_always (G := (· ≠ .nan)) n k (by omega) hn ops
      (fun o ho => by rw [hm o ho]; exact goodFor_default (fun _ h => h)) hlen hnan).mono (fun _ _ => trivial)
  have hst := hist_partially (ok := fun _ _ => True) (K := K) (J := fun _ _ _ => True)
    ⟨fun _ _ _ _ => ⟨fun _ _ _ _ _ _ _ => trivial, fun _ _ _ _ _ _ => trivial, fun _ _ _ _ _ _ _ _ _ => trivial,
      fun _ _ _ _ _ _ _ _ _ _ _ _ _ => trivial⟩, fun _ _ _ _ _ _ => trivial, fun _ _ _ _ => trivial⟩ n k ops
    (fun _ _ => trivial) (fun _ => trivial)
  have hBpos : 1 ≤ bsize n k := by have := bsize_ge n k; omega
  -- variance at level h
  have hvar : ∀ h, exp (runHist n k ops) (fun s => ((U (fun b => rank b x) h s [] : ℚ) - R) ^ 2) ≤
      exp (runHist n k ops) (fun s => (oddVar x h s.log : ℚ)) := by
    intro h
    have := hist_exp (U_var_super (k := k) hn x h) (by omega) hn ops (fun o ho => hm o ho) hlen hnan
    have e0 : ((U (fun b => rank b x) h (fresh n k : RCSketch K) [] : ℚ) - rank ([] : List (Fl K)) x) ^ 2 -
        oddVar x h (fresh n k : RCSketch K).log = 0 := by simp [U, fresh, lsum, rank, oddVar]
    rw [e0] at this
    have e : (fun s : RCSketch K => ((U (fun b => rank b x) h s [] : ℚ) - rank (insItems ops) x) ^ 2 - oddVar x h s.log) =
        (fun s => ((U (fun b => rank b x) h s [] : ℚ) - R) ^ 2 + (-1) * (oddVar x h s.log : ℚ)) := by
      funext s; rw [sub_eq_add_neg, neg_one_mul]
    rw [e, exp_add, exp_mul_left] at this
    linarith
  have hmean : ∀ h, exp (runHist n k ops) (fun s => (U (fun b => rank b x) h s [] : ℚ)) ≤ R := by
    intro h
    have := hist_exp (U_super (k := k) hn x h 1) (by omega) hn ops (fun o ho => hm o ho) hlen hnan
    have e0 : (1 : ℚ) * ((U (fun b => rank b x) h (fresh n k : RCSketch K) [] : ℚ) - rank ([] : List (Fl K)) x) = 0 := by
      simp [U, fresh, lsum, rank]
    rw [e0] at this
    have e : (fun s : RCSketch K => (1 : ℚ) * ((U (fun b => rank b x) h s [] : ℚ) - rank (insItems ops) x)) =
        (fun s => (U (fun b => rank b x) h s [] : ℚ) + (-R)) := by
      funext s; rw [one_mul, sub_eq_add_neg]
    rw [e, exp_add, exp_const hal] at this
    linarith
  have hRnn : 0 ≤ R := Nat.cast_nonneg _
  have hsq : ∀ h, exp (runHist n k ops) (fun s => (U (fun b => rank b x) h s [] : ℚ) ^ 2) ≤
      R ^ 2 + exp (runHist n k ops) (fun s => (oddVar x h s.log : ℚ)) := by
    intro h
    have e : (fun s : RCSketch K => (U (fun b => rank b x) h s [] : ℚ) ^ 2) =
        (fun s => ((U (fun b => rank b x) h s [] : ℚ) - R) ^ 2 + ((2 * R) * (U (fun b => rank b x) h s [] : ℚ) + (-R ^ 2))) := by
      funext s; ring
    rw [e, exp_add, exp_add, exp_mul_left, exp_const hal]
    have h1 := hvar h
    have h2 := mul_le_mul_of_nonneg_left (hmean h) (by linarith : 0 ≤ 2 * R)
    nlinarith
  have hy : (0 : ℚ) < (κ * bsize n k : Nat) := by exact_mod_cast Nat.mul_pos hκ hBpos
  have hrec := relative_rec (fun h => exp (runHist n k ops) (fun s => (oddVar x h s.log : ℚ))) R (2 / (κ * bsize n k : Nat))
    (by positivity) (by simp only [oddVar_zero]; rw [exp_const hal]; simp)
    (fun h => by
      have e : (fun s : RCSketch K => (oddVar x (h + 1) s.log : ℚ)) =
          (fun s => (oddVar x h s.log : ℚ) + 4 ^ h * (oddAt x h s.log : ℚ)) := by
        funext s; rw [oddVar_succ]; push_cast; rfl
      rw [e, exp_add]
      have h1 : exp (runHist n k ops) (fun s => 4 ^ h * (oddAt x h s.log : ℚ)) ≤
          exp (runHist n k ops) (fun s => (2 / (κ * bsize n k : Nat)) * (U (fun b => rank b x) h s [] : ℚ) ^ 2) := by
        apply exp_mono
        refine ((hodd.and hprice).and hst).mono ?_
        rintro s ⟨⟨⟨ho, -⟩, hp⟩, -, hb, -, hs⟩
        have h2 := odd_price ho hb.hg hs.2.2.1 h (hp h)
        have h3 : (4 : ℚ) ^ h * ((κ * bsize n k : Nat) * (oddAt x h s.log : ℚ)) ≤ 2 * (U (fun b => rank b x) h s [] : ℚ) ^ 2 := by
          exact_mod_cast h2
        rw [div_mul_eq_mul_div, le_div_iff₀ hy]
        calc (4 : ℚ) ^ h * (oddAt x h s.log : ℚ) * (κ * bsize n k : Nat) =
            4 ^ h * ((κ * bsize n k : Nat) * (oddAt x h s.log : ℚ)) := by ring
          _ ≤ _ := h3
      rw [exp_mul_left, exp_mul_left] at h1
      rw [exp_mul_left]
      have h2 := mul_le_mul_of_nonneg_left (hsq h) (by positivity : (0 : ℚ) ≤ 2 / (κ * bsize n k : Nat))
      linarith)
  refine le_trans (le_of_eq (exp_congr ?_)) ((hvar H).trans (hrec H))
  refine (hodd.and hH).mono ?_
  rintro s ⟨⟨ho, -⟩, h1, h2⟩
  rw [U_eq_weighted x H s h1 (fun e he => by
    obtain ⟨c, h3, h4⟩ := ho.lvl e he
    exact h2 e.1 c h3 h4)]

end RCSketch
end AQ

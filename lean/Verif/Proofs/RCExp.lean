/-
Expectations over the coin flips of `RCSketch` (default compaction).
-/
import Verif.Proofs.RCFlow

set_option linter.unusedSectionVars false
set_option linter.unusedVariables false

namespace AQ
open Prog Spec
variable {K : Type} [Field K] [LinearOrder K] [IsStrictOrderedRing K] [FloatFmt K]

namespace RCSketch
variable {G : Fl K → Prop} {n k N : Nat}

/-- A compaction with the default method is one coin flip between the two halves. -/
theorem compactAt_default_eq (s : RCSketch K) (h : Nat) (fast : Bool) (buf : List (Fl K))
    (hb : s.buffers[h]? = some buf) (hnan : ∀ x ∈ buf, x ≠ .nan)
    (hf : fast = true → s.bufferSize / 2 ≤ buf.length)
    (hs : fast = false → ∃ c, s.counters[h]? = some c ∧ (trailingOnes c + 1) * s.k ≤ buf.length ∧ c + 1 < 2 ^ 32) :
    ∃ ci ctrs, s.compactAt h fast .default =
      .flip (fun b => .ret (everyOther b ((sorted id buf).drop ci), s.afterSplit h ci buf ctrs)) := by
  have hl : (sorted id buf).length = buf.length := (sorted_perm id buf).length_eq
  unfold compactAt
  cases fast with
  | true =>
    refine ⟨s.bufferSize / 2, s.counters, ?_⟩
    simp only [if_true, bind_ret, getCompactIndexFast, compact, Prog.idx, hb, sortFl,
      sortByKey_of_no_nan id buf (by simpa using hnan)]
    have := hf rfl
    rw [if_pos (by omega)]
    rfl
  | false =>
    obtain ⟨c, hc, hle, h32⟩ := hs rfl
    refine ⟨buf.length - (trailingOnes c + 1) * s.k, s.counters.set h (c + 1), ?_⟩
    simp only [Bool.false_eq_true, if_false, getCompactIndex, Prog.idx, hb, hc, bind_ret, usub_eq hle, if_pos h32,
      pure_eq, compact, sortFl, sortByKey_of_no_nan id buf (by simpa using hnan)]
    rw [if_pos (by omega)]
    rfl

/-- `Φ` never increases in expectation along a history within range. -/
structure HistSuper (G : Fl K → Prop) (n k : Nat) (ok : Bool → CompactionMethod → Prop)
    (Φ : List (Fl K) → RCSketch K → List (Frame K) → ℚ) : Prop where
  good : ∀ fast m, ok fast m → GoodFor G m
  super : ∀ l fast m, ok fast m → l.length ≤ n → Super fast m (InR G k (bsize n k) l.length) (Φ l)
  start : ∀ l c s, Φ (l ++ c) s [⟨0, c⟩] ≤ Φ l s []
  cnt : ∀ l s n, Φ l { s with count := n } [] ≤ Φ l s []

theorem super_and {fast : Bool} {m : CompactionMethod} {J : RCSketch K → List (Frame K) → Prop}
    {Φ : RCSketch K → List (Frame K) → ℚ} (su : Super fast m J Φ) (J' : RCSketch K → List (Frame K) → Prop) :
    Super fast m (fun s P => J s P ∧ J' s P) Φ where
  ensure s h items rest hb hj := su.ensure s h items rest hb hj.1
  pop s h rest hb hj := su.pop s h rest hb hj.1
  push s h items rest buf hb hj := su.push s h items rest buf hb hj.1
  compact s h items rest buf n hb hj := su.compact s h items rest buf n hb hj.1

variable {ok : Bool → CompactionMethod → Prop} {Φ : List (Fl K) → RCSketch K → List (Frame K) → ℚ}

theorem batches_exp (hs : HistSuper G n k ok Φ) {fast : Bool} {m : CompactionMethod} (hok : ok fast m) (hn : n < 2 ^ 32)
    (cs : List (List (Fl K))) (hcs : ∀ a ∈ cs, a ≠ []) : ∀ (l : List (Fl K)) (s : RCSketch K), Base s [] →
      InR G k (bsize n k) l.length s [] → l.length + cs.flatten.length ≤ n → (∀ y ∈ cs.flatten, G y) →
      exp (batches fast m cs s) (fun s' => Φ (l ++ cs.flatten) s' []) ≤ Φ l s [] := by
  have hG := hs.good fast m hok
  induction cs with
  | nil => intro l s hb hj _ _; simp [batches]
  | cons a cs ih =>
    intro l s hb hj hN hg
    rw [batches, exp_bind]
    simp only [List.flatten_cons, List.length_append, List.mem_append] at hN hg ⊢
    have hj1 := hj.start (c := a) (fun y hy => hg y (Or.inl hy))
    have hN1 : l.length + a.length ≤ n := by omega
    have hf : need (bsize n k) (s.stored + a.length) 0 a.length ≤ s.fuelFor a.length := by
      have := need_le_fuel s a.length; rw [hj.hB] at this; exact this
    have cl := (InR.closed (k := k) hG fast hN1).and (total_closed fast m (s.stored + a.length))
    have pr := inR_progress (K := K) (k := k) hG.1 fast hN1 hn (s.stored + a.length)
    have hbs := base_start hb a
    have hjj : InR G k (bsize n k) (l.length + a.length) s [⟨0, a⟩] ∧ total s [⟨0, a⟩] ≤ s.stored + a.length :=
      ⟨hj1, by simp [total]⟩
    have su := hs.super (l ++ a) fast m hok (by simpa using hN1)
    rw [List.length_append] at su
    have h1 := (batch_super cl pr (super_and su _) (s.fuelFor a.length)).1 s 0 a [] hbs hjj hf
    refine le_trans (exp_mono ?_) (h1.trans (hs.start l a s))
    refine (batch_always cl pr hbs hjj hf).partially.mono ?_
    rintro s' ⟨hb', -, hj', -⟩
    have := ih (fun a ha => hcs a (by simp [ha])) (l ++ a) s' hb' (by simpa using hj')
      (by rw [List.length_append]; omega)
      (fun y hy => hg y (Or.inr hy))
    rwa [List.append_assoc] at this

theorem execOp_exp (hs : HistSuper G n k ok Φ) (o : InsOp K) (hok : ok o.fast o.method) (hn : n < 2 ^ 32)
    (l : List (Fl K)) (s : RCSketch K) (hb : Base s [])
    (hj : InR G k (bsize n k) l.length s []) (hN : l.length + o.items.length ≤ n) (hg : ∀ y ∈ o.items, G y) :
    exp (s.execOp o) (fun s' => Φ (l ++ o.items) s' []) ≤ Φ l s [] := by
  have hcust : ∀ (xs : List (Fl K)) (fast : Bool) (m : CompactionMethod), ok fast m → l.length + xs.length ≤ n →
      (∀ y ∈ xs, G y) → exp (s.addBufferCustom xs fast m) (fun s' => Φ (l ++ xs) s' []) ≤ Φ l s [] := by
    intro xs fast m hok hN hg
    unfold addBufferCustom
    have hB := hb.hB
    have hne : s.bufferSize / 2 ≠ 0 := by omega
    have hfl := chunksAux_flatten (s.bufferSize / 2) hne xs.length xs (le_refl _)
    rw [chunks, if_neg hne, bind_ret, exp_bind]
    have := batches_exp hs hok hn _ (chunksAux_ne_nil _ hne xs.length xs) l s hb hj (by rw [hfl]; exact hN)
      (by rw [hfl]; exact hg)
    rw [hfl] at this
    refine le_trans (exp_mono ?_) this
    exact (partially_true _).mono (fun s' _ => hs.cnt _ _ _)
  cases o with
  | add x =>
    change exp (s.add x) _ ≤ _
    have hG := hs.good _ _ hok
    unfold add
    rw [exp_bind]
    have hj1 := hj.start (c := [x]) (by simpa [InsOp.items] using hg)
    have hN1 : l.length + [x].length ≤ n := by simpa [InsOp.items] using hN
    have hf : need (bsize n k) (s.stored + 1) 0 1 ≤ s.fuelFor 1 := by
      have := need_le_fuel s 1; rw [hj.hB] at this; exact this
    have cl := (InR.closed (k := k) hG false hN1).and (total_closed false .default (s.stored + 1))
    have pr := inR_progress (K := K) (k := k) hG.1 false hN1 hn (s.stored + 1)
    have su := hs.super (l ++ [x]) false .default hok (by simpa using hN1)
    rw [List.length_append] at su
    have h1 := insertAt_super cl pr (super_and su _) (base_start hb [x]) ⟨hj1, by simp [total]⟩ hf
    refine le_trans (exp_mono ?_) (h1.trans (hs.start l [x] s))
    exact (partially_true _).mono (fun s' _ => hs.cnt _ _ _)
  | addBuffer xs => exact hcust xs false .default hok hN hg
  | addBufferFast xs => exact hcust xs true .default hok hN hg
  | addBufferCustom xs fast m => exact hcust xs fast m hok hN hg

theorem execOps_exp (hs : HistSuper G n k ok Φ) (ops : List (InsOp K)) (hok : ∀ o ∈ ops, ok o.fast o.method)
    (hn : n < 2 ^ 32) : ∀ (l : List (Fl K)) (s : RCSketch K), Base s [] → InR G k (bsize n k) l.length s [] →
      l.length + (insItems ops).length ≤ n → (∀ y ∈ insItems ops, G y) →
      exp (s.execOps ops) (fun s' => Φ (l ++ insItems ops) s' []) ≤ Φ l s [] := by
  induction ops with
  | nil => intro l s hb hj _ _; simp [execOps, insItems]
  | cons o os ih =>
    intro l s hb hj hN hg
    have e : insItems (o :: os) = o.items ++ insItems os := by simp [insItems]
    rw [e, List.length_append] at hN
    rw [e] at hg ⊢
    rw [execOps, exp_bind]
    have h1 := execOp_exp hs o (hok o (by simp)) hn l s hb hj (by omega) (fun y hy => hg y (by simp [hy]))
    refine le_trans (exp_mono ?_) h1
    refine (execOp_always o (hs.good _ _ (hok o (by simp))) hn s hb hj (by omega)
      (fun y hy => hg y (by simp [hy]))).partially.mono ?_
    rintro s' ⟨hb', hj'⟩
    have := ih (fun o ho => hok o (by simp [ho])) (l ++ o.items) s' hb' (by simpa using hj') (by simp; omega)
      (fun y hy => hg y (by simp [hy]))
    rwa [List.append_assoc] at this

/-- Expectation rule for histories. -/
theorem hist_exp (hs : HistSuper G n k ok Φ) (hk : k ≠ 0) (hn : n < 2 ^ 32) (ops : List (InsOp K))
    (hok : ∀ o ∈ ops, ok o.fast o.method) (hlen : (insItems ops).length ≤ n) (hg : ∀ y ∈ insItems ops, G y) :
    exp (runHist n k ops) (fun s => Φ (insItems ops) s []) ≤ Φ [] (fresh n k) [] := by
  unfold runHist
  rw [new_eq hk, bind_ret]
  have := execOps_exp hs ops hok hn [] (fresh n k) (base_fresh hk) (InR.fresh hk) (by simpa using hlen) hg
  simpa using this

/-! ### The estimated rank is a martingale -/

/-- The two outcomes of a compaction: equal and opposite changes of the weighted rank, at most `2^h`. -/
theorem flip_rank (hG : ∀ y, G y → y ≠ .nan) {s : RCSketch K} {h m : Nat} {fast : Bool} {items buf : List (Fl K)}
    {rest : List (Frame K)} (hb : Base s (⟨h, items⟩ :: rest)) (hj : InR G k (bsize n k) N s (⟨h, items⟩ :: rest))
    (hN : N ≤ n) (hn : n < 2 ^ 32) (hget : s.buffers[h]? = some buf) (hm : m ≤ items.length)
    (hlen : buf.length + m = s.bufferSize) :
    ∃ f : Bool → List (Fl K) × RCSketch K,
      (s.setBuf h (buf ++ items.take m)).compactAt h fast .default = .flip (fun b => .ret (f b)) ∧
      (∀ b, (f b).2.compactions = s.compactions.set h (s.compactions.getD h 0 + 1)) ∧
      ∀ x, ∃ δ : ℤ, |δ| ≤ 2 ^ h ∧
        (W (fun b => rank b x) (f false).2 (⟨h + 1, (f false).1⟩ :: ⟨h, items.drop m⟩ :: rest) : ℤ) =
          W (fun b => rank b x) s (⟨h, items⟩ :: rest) + δ ∧
        (W (fun b => rank b x) (f true).2 (⟨h + 1, (f true).1⟩ :: ⟨h, items.drop m⟩ :: rest) : ℤ) =
          W (fun b => rank b x) s (⟨h, items⟩ :: rest) - δ := by
  have hh : h < s.buffers.length := (List.getElem?_eq_some_iff.1 hget).1
  obtain ⟨c, hc1, hc2, hc3⟩ := hj.index hb hN hget hm hlen
  have hl : (buf ++ items.take m).length = s.bufferSize := by rw [List.length_append, List.length_take]; omega
  have hB := hb.hB
  obtain ⟨ci, ctrs, he⟩ := compactAt_default_eq (s.setBuf h (buf ++ items.take m)) h fast (buf ++ items.take m) (setBuf_get hh)
    (by
      intro y hy
      apply hG
      rcases List.mem_append.1 hy with h2 | h2
      · exact hj.good buf (List.mem_of_getElem? hget) y h2
      · exact hj.goodP ⟨h, items⟩ (by simp) y (List.mem_of_mem_take h2))
    (by intro _; rw [hl]; exact Nat.div_le_self _ _)
    (by intro _; exact ⟨c, hc1, by rw [hl]; change (trailingOnes c + 1) * s.k ≤ _; omega, by omega⟩)
  refine ⟨_, he, fun b => rfl, fun x => ?_⟩
  set full := buf ++ items.take m with hfull
  have hw : ∀ b, W (fun b => rank b x) ((s.setBuf h full).afterSplit h ci full ctrs)
      (⟨h + 1, everyOther b ((sorted id full).drop ci)⟩ :: ⟨h, items.drop m⟩ :: rest) +
        2 ^ h * rank ((sorted id full).drop ci) x =
      W (fun b => rank b x) s (⟨h, items⟩ :: rest) + 2 ^ h * (2 * rank (everyOther b ((sorted id full).drop ci)) x) := by
    intro b
    rw [W_split (additive_rank x) _ ctrs _ (setBuf_get hh), W_push (additive_rank x) s items m rest hget]
  have hsum := everyOther_sum (fun y => decide (y ≤ x)) ((sorted id full).drop ci)
  have hrk := everyOther_rank ((sorted_pairwise id full).sublist (List.drop_sublist ci _)) x
  have w0 := hw false
  have w1 := hw true
  have hp : (0 : ℤ) < 2 ^ h := by positivity
  generalize (sorted id full).drop ci = u at *
  simp only [rank] at hrk hsum w0 w1 ⊢
  generalize List.countP (fun y => decide (y ≤ x)) (everyOther false u) = a at *
  generalize List.countP (fun y => decide (y ≤ x)) (everyOther true u) = b at *
  generalize List.countP (fun y => decide (y ≤ x)) u = c0 at *
  refine ⟨2 ^ h * ((a : ℤ) - b), ?_, ?_, ?_⟩
  · rw [abs_mul, abs_of_pos hp]
    have : |(a : ℤ) - b| ≤ 1 := by rw [abs_le]; constructor <;> omega
    nlinarith
  · have w0' : (_ : ℤ) = _ := congrArg Nat.cast w0
    push_cast at w0'
    have : (c0 : ℤ) = a + b := by omega
    rw [this] at w0'
    linarith
  · have w1' : (_ : ℤ) = _ := congrArg Nat.cast w1
    push_cast at w1'
    have : (c0 : ℤ) = a + b := by omega
    rw [this] at w1'
    linarith

/-- The signed rank error is a martingale (`σ = ±1` gives both inequalities). -/
theorem rank_super (hn : n < 2 ^ 32) (x : Fl K) (σ : ℚ) :
    HistSuper (K := K) (· ≠ .nan) n k (fun _ m => m = .default)
      (fun l s P => σ * ((W (fun b => rank b x) s P : ℚ) - rank l x)) where
  good fast m hm := hm ▸ goodFor_default (fun _ h => h)
  super l fast m hm hl :=
    { ensure := fun s h items rest hb hj hlen => by rw [W_ensure (additive_rank x)]
      pop := fun s h rest hb hj hlen => by rw [W_pop (additive_rank x)]
      push := fun s h items rest buf hb hj hg hlen => by rw [W_push_all (additive_rank x) s items rest hg]
      compact := fun s h items rest buf m' hb hj hg hm' hlen => by
        subst hm
        obtain ⟨f, he, -, hf⟩ := flip_rank (fast := fast) (fun _ h => h) hb hj hl hn hg hm' hlen
        obtain ⟨δ, -, h0, h1⟩ := hf x
        rw [he, exp_flip]
        simp only [exp_ret]
        have h0' : (_ : ℚ) = _ := congrArg Int.cast h0
        have h1' : (_ : ℚ) = _ := congrArg Int.cast h1
        push_cast at h0' h1'
        rw [h0', h1']
        apply le_of_eq; ring }
  start l c s := by rw [W_start, rank_append]; push_cast; apply le_of_eq; ring
  cnt l s n := le_refl _

theorem wsum4_set : ∀ (l : List Nat) (h a b : Nat), l[h]? = some a →
    wsum4 (l.set h b) + 4 ^ h * a = wsum4 l + 4 ^ h * b := by
  intro l
  induction l with
  | nil => intro h a b hh; simp at hh
  | cons c l ih =>
    intro h a b hh
    cases h with
    | zero => simp at hh; subst hh; simp [wsum4]; omega
    | succ h =>
      simp only [List.getElem?_cons_succ] at hh
      have := ih h a b hh
      simp only [List.set_cons_succ, wsum4, pow_succ]
      have e : ∀ z, 4 ^ h * 4 * z = 4 * (4 ^ h * z) := by intro z; ring
      rw [e, e]; omega

theorem wsum4_append_zero (l : List Nat) : wsum4 (l ++ [0]) = wsum4 l := by
  induction l with
  | nil => rfl
  | cons c l ih => simp [wsum4, ih]

theorem wsum4_zero : ∀ (l : List Nat), (∀ c ∈ l, c = 0) → wsum4 l = 0 := by
  intro l
  induction l with
  | nil => intro _; rfl
  | cons a l ih => intro h; rw [wsum4, h a (by simp), ih (fun c hc => h c (by simp [hc]))]

/-- Geometric bound on the accumulated compaction variance. -/
theorem wsum4_le (k : ℚ) (hk : 0 ≤ k) : ∀ (l : List Nat) (N M : ℚ), 0 ≤ N → 0 ≤ M →
    (∀ (h c : Nat), l[h]? = some c → 2 ^ h * (k * c) ≤ N) → (∀ (h c : Nat), l[h]? = some c → c ≠ 0 → 2 ^ (h + 1) - 1 ≤ M) →
    k * wsum4 l ≤ N * M := by
  intro l
  induction l with
  | nil => intro N M hN hM _ _; simpa [wsum4] using mul_nonneg hN hM
  | cons a l ih =>
    intro N M hN hM h1 h2
    rw [wsum4]
    push_cast
    have ha : k * a ≤ N := by simpa using h1 0 a rfl
    by_cases hz : ∀ c ∈ l, c = 0
    · rw [wsum4_zero l hz]
      by_cases ha0 : a = 0
      · subst ha0; simpa using mul_nonneg hN hM
      · have := h2 0 a rfl ha0
        norm_num at this
        simp only [Nat.cast_zero, mul_zero, add_zero]
        nlinarith
    · push Not at hz
      obtain ⟨c, hc, hc0⟩ := hz
      obtain ⟨h, hh⟩ := List.mem_iff_getElem?.1 hc
      have hM3 := h2 (h + 1) c (by simpa using hh) hc0
      have hp : (1 : ℚ) ≤ 2 ^ h := one_le_pow₀ (by norm_num)
      have hM3' : 3 ≤ M := by rw [pow_succ, pow_succ] at hM3; linarith
      have hA : ∀ (j c : Nat), l[j]? = some c → 2 ^ j * (k * c) ≤ N / 2 := by
        intro j c hj
        have := h1 (j + 1) c (by simpa using hj)
        rw [pow_succ] at this; linarith
      have hB : ∀ (j c : Nat), l[j]? = some c → c ≠ 0 → 2 ^ (j + 1) - 1 ≤ (M - 1) / 2 := by
        intro j c hj hc
        have := h2 (j + 1) c (by simpa using hj) hc
        rw [pow_succ] at this; linarith
      have := ih (N / 2) ((M - 1) / 2) (by linarith) (by linarith) hA hB
      nlinarith

/-- Squared error minus accumulated compaction variance is a supermartingale. -/
theorem var_super (hn : n < 2 ^ 32) (x : Fl K) :
    HistSuper (K := K) (· ≠ .nan) n k (fun _ m => m = .default)
      (fun l s P => ((W (fun b => rank b x) s P : ℚ) - rank l x) ^ 2 - wsum4 s.compactions) where
  good fast m hm := hm ▸ goodFor_default (fun _ h => h)
  super l fast m hm hl :=
    { ensure := fun s h items rest hb hj hlen => by
        rw [W_ensure (additive_rank x)]
        have : wsum4 (s.ensureLevel h).compactions = wsum4 s.compactions := by
          unfold ensureLevel; split
          · exact wsum4_append_zero _
          · rfl
        rw [this]
      pop := fun s h rest hb hj hlen => by rw [W_pop (additive_rank x)]
      push := fun s h items rest buf hb hj hg hlen => by
        rw [W_push_all (additive_rank x) s items rest hg]
        exact le_refl _
      compact := fun s h items rest buf m' hb hj hg hm' hlen => by
        subst hm
        obtain ⟨f, he, hc, hf⟩ := flip_rank (fast := fast) (fun _ h => h) hb hj hl hn hg hm' hlen
        obtain ⟨δ, hδ, h0, h1⟩ := hf x
        rw [he, exp_flip]
        simp only [exp_ret, hc]
        have h0' : (_ : ℚ) = _ := congrArg Int.cast h0
        have h1' : (_ : ℚ) = _ := congrArg Int.cast h1
        push_cast at h0' h1'
        rw [h0', h1']
        have hh : h < s.compactions.length := by rw [hb.hg]; exact (List.getElem?_eq_some_iff.1 hg).1
        have hw : wsum4 (s.compactions.set h (s.compactions.getD h 0 + 1)) = wsum4 s.compactions + 4 ^ h := by
          have e : s.compactions.getD h 0 = s.compactions[h] := by simp [List.getD, hh]
          have := wsum4_set s.compactions h _ (s.compactions[h] + 1) (List.getElem?_eq_getElem hh)
          rw [e, Nat.mul_add] at *
          omega
        rw [hw]
        have hδ2 : (δ : ℚ) ^ 2 ≤ 4 ^ h := by
          have h1 : δ ^ 2 ≤ (2 ^ h) ^ 2 := sq_le_sq' (by have := (abs_le.1 hδ).1; linarith) (abs_le.1 hδ).2
          have h2 : ((2 : ℤ) ^ h) ^ 2 = 4 ^ h := by rw [← pow_mul, mul_comm, pow_mul]; norm_num
          rw [h2] at h1
          exact_mod_cast h1
        push_cast
        nlinarith }
  start l c s := by rw [W_start, rank_append]; push_cast; apply le_of_eq; ring
  cnt l s n := le_refl _

end RCSketch
end AQ

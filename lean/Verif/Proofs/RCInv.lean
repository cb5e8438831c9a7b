/-
History invariants of `RCSketch`: weight, rank error, low end, membership, levels.
-/
import Verif.Proofs.RCRange

set_option linter.unusedSectionVars false
set_option linter.unusedVariables false

namespace AQ
open Prog Spec
variable {K : Type} [Field K] [LinearOrder K] [IsStrictOrderedRing K] [FloatFmt K]

namespace RCSketch
variable {G : Fl K → Prop} {n k N : Nat}

theorem rank_append (a b : List (Fl K)) (x : Fl K) : rank (a ++ b) x = rank a x + rank b x := List.countP_append

theorem W_start (g : List (Fl K) → Nat) (s : RCSketch K) (c : List (Fl K)) : W g s [⟨0, c⟩] = W g s [] + g c := by
  simp [W, fsum]

theorem W_nil (g : List (Fl K) → Nat) (s : RCSketch K) : W g s [] = wsum (s.buffers.map g) := by simp [W, fsum]

/-! ### Weight -/

theorem weightInv : HistInv (K := K) (fun _ _ => True)
    (fun l s P => s.k % 2 = 0 → s.bufferSize % 4 = 0 → W List.length s P = l.length) where
  closed l fast m _ :=
    { ensure := fun s h items rest hb hj hl h1 h2 => by
        have e1 : (s.ensureLevel h).k = s.k := by unfold ensureLevel; split <;> rfl
        have e2 : (s.ensureLevel h).bufferSize = s.bufferSize := by unfold ensureLevel; split <;> rfl
        rw [W_ensure additive_length]; exact hj (e1 ▸ h1) (e2 ▸ h2)
      pop := fun s h rest hb hj hl h1 h2 => by rw [← W_pop additive_length s h]; exact hj h1 h2
      push := fun s h items rest buf hb hj hg hl h1 h2 => by
        rw [W_push_all additive_length s items rest hg]; exact hj h1 h2
      compact := fun s h items rest buf n r hb hj hg hn hl hr h1 h2 => by
        obtain ⟨ci, ctrs, hi, hci, ho, hw⟩ := W_compact additive_length (rest := rest) hg hr
        have hr' := hr
        obtain ⟨_, _, _, _, _, _, _, rfl⟩ := hr'
        have h1 : s.k % 2 = 0 := h1
        have h2 : s.bufferSize % 4 = 0 := h2
        have hlen : (buf ++ items.take n).length = s.bufferSize := by
          rw [List.length_append, List.length_take]; omega
        have hup : ((sorted id (buf ++ items.take n)).drop ci).length % 2 = 0 := by
          rw [List.length_drop, (sorted_perm id _).length_eq, hlen]
          unfold IsIndex at hi
          split at hi
          · have : ci = s.bufferSize / 2 := hi.1
            omega
          · obtain ⟨c, _, h4, _⟩ := hi
            have h4 : ci + (trailingOnes c + 1) * s.k = (buf ++ items.take n).length := h4
            have : (trailingOnes c + 1) * s.k % 2 = 0 := by rw [Nat.mul_mod, h1]; simp
            omega
        have := isOut_two ho hup
        have hj := hj h1 h2
        rw [this] at hw
        omega }
  start l c s _ hb hj h1 h2 := by rw [W_start, hj h1 h2, List.length_append]
  cnt l s n hj h1 h2 := hj h1 h2

theorem bsize_mod4 {n k : Nat} (hk : k % 2 = 0) : bsize n k % 4 = 0 := by
  obtain ⟨j, rfl⟩ : ∃ j, k = 2 * j := ⟨k / 2, by omega⟩
  unfold bsize
  rcases max_choice (2 * (2 * j) * Nat.clog 2 (n / (2 * j))) (2 * (2 * j)) with h | h <;> rw [h]
  · have : 2 * (2 * j) * Nat.clog 2 (n / (2 * j)) = 4 * (j * Nat.clog 2 (n / (2 * j))) := by ring
    omega
  · omega

/-! ### Rank error -/

theorem compactions_eq {s : RCSketch K} {h : Nat} (hh : h < s.compactions.length) :
    wsum (s.compactions.set h (s.compactions.getD h 0 + 1)) = wsum s.compactions + 2 ^ h := by
  have e : s.compactions.getD h 0 = s.compactions[h] := by simp [List.getD, hh]
  have := wsum_set s.compactions h _ (s.compactions[h] + 1) (List.getElem?_eq_getElem hh)
  rw [e, Nat.mul_add] at *
  omega

/-- The estimated weighted rank is within `E` of the true one. -/
def Within (l : List (Fl K)) (s : RCSketch K) (P : List (Frame K)) : Prop :=
  ∀ x, W (fun b => rank b x) s P ≤ rank l x + wsum s.compactions ∧
    rank l x ≤ W (fun b => rank b x) s P + wsum s.compactions

theorem isOut_rank_default {u out : List (Fl K)} (hs : u.Pairwise (· ≤ ·)) (ho : IsOut .default u out) (x : Fl K) :
    rank u x ≤ 2 * rank out x + 1 ∧ 2 * rank out x ≤ rank u x + 1 := by
  obtain ⟨b, rfl⟩ := ho
  have := everyOther_rank hs x
  cases b <;> omega

theorem isOut_rank [FloatFmt.Binary K] {m : CompactionMethod} {u out : List (Fl K)} (hs : u.Pairwise (· ≤ ·))
    (hf : ∀ y ∈ u, y.CanDouble) (ho : IsOut m u out) (x : Fl K) :
    rank u x ≤ 2 * rank out x + 1 ∧ 2 * rank out x ≤ rank u x + 1 := by
  cases m with
  | default => exact isOut_rank_default hs ho x
  | averageNeighbour =>
    have h' : out = averagePairs u := ho
    subst h'; exact averagePairs_rank u hs hf x

theorem within_compact {l : List (Fl K)} {s : RCSketch K} {h n : Nat} {fast : Bool} {m : CompactionMethod}
    {items buf : List (Fl K)} {rest : List (Frame K)} {r : List (Fl K) × RCSketch K}
    (hb : Base s (⟨h, items⟩ :: rest)) (hj : Within l s (⟨h, items⟩ :: rest)) (hg : s.buffers[h]? = some buf)
    (hr : CompactRel (s.setBuf h (buf ++ items.take n)) h fast m (buf ++ items.take n) r)
    (hrk : ∀ ci out x, IsOut m ((sorted id (buf ++ items.take n)).drop ci) out →
      rank ((sorted id (buf ++ items.take n)).drop ci) x ≤ 2 * rank out x + 1 ∧
      2 * rank out x ≤ rank ((sorted id (buf ++ items.take n)).drop ci) x + 1) :
    Within l r.2 (⟨h + 1, r.1⟩ :: ⟨h, items.drop n⟩ :: rest) := by
  intro x
  obtain ⟨ci, ctrs, hi, hci, ho, hw⟩ := W_compact (additive_rank x) (rest := rest) hg hr
  obtain ⟨h1, h2⟩ := hrk ci r.1 x ho
  have hc : wsum r.2.compactions = wsum s.compactions + 2 ^ h := by
    obtain ⟨ci', ctrs', out, _, _, _, _, rfl⟩ := hr
    have hh : h < s.compactions.length := by rw [hb.hg]; exact (List.getElem?_eq_some_iff.1 hg).1
    exact compactions_eq hh
  obtain ⟨h3, h4⟩ := hj x
  rw [hc]
  have e1 : 2 ^ h * rank ((sorted id (buf ++ items.take n)).drop ci) x ≤ 2 ^ h * (2 * rank r.1 x) + 2 ^ h := by
    have := Nat.mul_le_mul_left (2 ^ h) h1; rw [Nat.mul_add, Nat.mul_one] at this; exact this
  have e2 : 2 ^ h * (2 * rank r.1 x) ≤ 2 ^ h * rank ((sorted id (buf ++ items.take n)).drop ci) x + 2 ^ h := by
    have := Nat.mul_le_mul_left (2 ^ h) h2; rw [Nat.mul_add, Nat.mul_one] at this; exact this
  constructor <;> omega

theorem within_ensure {l : List (Fl K)} {s : RCSketch K} {h : Nat} {P : List (Frame K)} (hj : Within l s P) :
    Within l (s.ensureLevel h) P := by
  intro x
  rw [W_ensure (additive_rank x)]
  have : wsum (s.ensureLevel h).compactions = wsum s.compactions := by
    unfold ensureLevel; split
    · exact wsum_append_zero _
    · rfl
  rw [this]; exact hj x

theorem within_push {l : List (Fl K)} {s : RCSketch K} {h : Nat} {items buf : List (Fl K)} {rest : List (Frame K)}
    (hj : Within l s (⟨h, items⟩ :: rest)) (hg : s.buffers[h]? = some buf) :
    Within l (s.setBuf h (buf ++ items)) (⟨h, []⟩ :: rest) := by
  intro x
  rw [W_push_all (additive_rank x) s items rest hg]; exact hj x

theorem within_pop {l : List (Fl K)} {s : RCSketch K} {h : Nat} {rest : List (Frame K)}
    (hj : Within l s (⟨h, []⟩ :: rest)) : Within l s rest := by
  intro x
  rw [← W_pop (additive_rank x) s h]; exact hj x

theorem within_start {l c : List (Fl K)} {s : RCSketch K} (hj : Within l s []) : Within (l ++ c) s [⟨0, c⟩] := by
  intro x
  have := hj x
  rw [W_start, rank_append]; omega

theorem within_fresh (n k : Nat) : Within [] (fresh n k : RCSketch K) [] := by
  intro x; simp [W, fresh, fsum, wsum, rank]

theorem errInv_default : HistInv (K := K) (fun _ m => m = .default) Within where
  closed l fast m hm :=
    { ensure := fun s h items rest hb hj hl => within_ensure hj
      pop := fun s h rest hb hj hl => within_pop hj
      push := fun s h items rest buf hb hj hg hl => within_push hj hg
      compact := fun s h items rest buf n r hb hj hg hn hl hr => by
        subst hm
        exact within_compact hb hj hg hr (fun ci out x ho =>
          isOut_rank_default ((sorted_pairwise id _).sublist (List.drop_sublist _ _)) ho x) }
  start l c s _ hb hj := within_start hj
  cnt l s n hj := hj

/-! ### Properties of stored items -/

/-- All items of a configuration satisfy `G`. -/
def AllG (G : Fl K → Prop) (s : RCSketch K) (P : List (Frame K)) : Prop :=
  (∀ b ∈ s.buffers, ∀ y ∈ b, G y) ∧ ∀ f ∈ P, ∀ y ∈ f.items, G y

/-- `G` is preserved by compaction. -/
def Pres (G : Fl K → Prop) (m : CompactionMethod) : Prop :=
  ∀ u out : List (Fl K), u.Pairwise (· ≤ ·) → (∀ y ∈ u, G y) → IsOut m u out → ∀ y ∈ out, G y

theorem pres_default (G : Fl K → Prop) : Pres G .default := by
  rintro u out - hu ⟨b, rfl⟩ y hy
  exact hu y (mem_everyOther hy)

theorem allG_compact {s : RCSketch K} {h n : Nat} {fast : Bool} {m : CompactionMethod} {items buf : List (Fl K)}
    {rest : List (Frame K)} {r : List (Fl K) × RCSketch K} (hG : Pres G m)
    (hj : AllG G s (⟨h, items⟩ :: rest)) (hg : s.buffers[h]? = some buf)
    (hr : CompactRel (s.setBuf h (buf ++ items.take n)) h fast m (buf ++ items.take n) r) :
    AllG G r.2 (⟨h + 1, r.1⟩ :: ⟨h, items.drop n⟩ :: rest) := by
  obtain ⟨ci, ctrs, out, hi, hci, -, ho, rfl⟩ := hr
  have hfg : ∀ y ∈ sorted id (buf ++ items.take n), G y := by
    intro y hy
    have hy := (sorted_perm id _).mem_iff.1 hy
    rcases List.mem_append.1 hy with h2 | h2
    · exact hj.1 buf (List.mem_of_getElem? hg) y h2
    · exact hj.2 ⟨h, items⟩ (by simp) y (List.mem_of_mem_take h2)
  refine ⟨?_, ?_⟩
  · intro b hb y hy
    simp only [afterSplit, setBuf, List.set_set] at hb
    rcases List.mem_or_eq_of_mem_set hb with h1 | rfl
    · exact hj.1 b h1 y hy
    · exact hfg y (List.mem_of_mem_take hy)
  · intro f hf y hy
    rcases List.mem_cons.1 hf with rfl | hf
    · exact hG _ _ ((sorted_pairwise id _).sublist (List.drop_sublist _ _))
        (fun y hy => hfg y (List.mem_of_mem_drop hy)) ho y hy
    · rcases List.mem_cons.1 hf with rfl | hf
      · exact hj.2 ⟨h, items⟩ (by simp) y (List.mem_of_mem_drop hy)
      · exact hj.2 f (by simp [hf]) y hy

theorem allG_closed {m : CompactionMethod} (hG : Pres G m) (fast : Bool) : Closed (K := K) fast m (AllG G) where
  ensure s h items rest hb hj hl := by
    refine ⟨?_, hj.2⟩
    intro b hb y hy
    unfold ensureLevel at hb
    split at hb
    · rcases List.mem_append.1 hb with h1 | h1
      · exact hj.1 b h1 y hy
      · simp at h1; subst h1; simp at hy
    · exact hj.1 b hb y hy
  pop s h rest hb hj hl := ⟨hj.1, fun f hf => hj.2 f (by simp [hf])⟩
  push s h items rest buf hb hj hg hl := by
    refine ⟨?_, ?_⟩
    · intro b hb y hy
      rcases List.mem_or_eq_of_mem_set hb with h1 | rfl
      · exact hj.1 b h1 y hy
      · rcases List.mem_append.1 hy with h2 | h2
        · exact hj.1 buf (List.mem_of_getElem? hg) y h2
        · exact hj.2 ⟨h, items⟩ (by simp) y h2
    · intro f hf y hy
      rcases List.mem_cons.1 hf with rfl | hf
      · simp at hy
      · exact hj.2 f (by simp [hf]) y hy
  compact s h items rest buf n r hb hj hg hn hl hr := allG_compact hG hj hg hr

/-- History version: `G l` is allowed to depend monotonically on the items supplied so far. -/
theorem allG_inv {G : List (Fl K) → Fl K → Prop} {ok : Bool → CompactionMethod → Prop}
    (hp : ∀ l fast m, ok fast m → Pres (G l) m)
    (hmono : ∀ l c y, G l y → G (l ++ c) y) (hin : ∀ l c, ∀ y ∈ c, G (l ++ c) y) :
    HistInv ok (fun l => AllG (G l)) where
  closed l fast m hok := allG_closed (hp l fast m hok) fast
  start l c s _ hb hj := ⟨fun b hb y hy => hmono l c y (hj.1 b hb y hy), by
    intro f hf y hy; simp at hf; subst hf; exact hin l c y hy⟩
  cnt l s n hj := hj

/-- Stored items are inserted items. -/
theorem memInv : HistInv (K := K) (fun _ m => m = .default) (fun l => AllG (fun y => y ∈ l)) :=
  allG_inv (G := fun l y => y ∈ l) (fun l fast m hm => hm ▸ pres_default _) (fun l c y h => by simp [h])
    (fun l c y h => by simp [h])

/-- Between two members of `l`, finite. -/
def Between (l : List (Fl K)) (y : Fl K) : Prop := y.CanDouble ∧ (∃ a ∈ l, a ≤ y) ∧ ∃ b ∈ l, y ≤ b

theorem pres_between [FloatFmt.Binary K] (l : List (Fl K)) (m : CompactionMethod) : Pres (Between l) m := by
  cases m with
  | default => exact pres_default _
  | averageNeighbour =>
    intro u out hs hu ho y hy
    have h' : out = averagePairs u := ho
    subst h'
    obtain ⟨h1, ⟨a, ha, h2⟩, b, hb, h3⟩ := averagePairs_mem u hs (fun y hy => (hu y hy).1) y hy
    obtain ⟨-, ⟨a', ha', h2'⟩, -⟩ := hu a ha
    obtain ⟨-, -, b', hb', h3'⟩ := hu b hb
    exact ⟨h1, ⟨a', ha', h2'.trans h2⟩, b', hb', h3.trans h3'⟩

/-- With averaging: stored items are finite and lie between inserted items. -/
theorem betweenInv [FloatFmt.Binary K] : HistInv (K := K) (fun _ _ => True)
    (fun l => AllG (fun y => (∀ z ∈ l, z.CanDouble) → Between l y)) :=
  allG_inv (G := fun l y => (∀ z ∈ l, z.CanDouble) → Between l y)
    (by
      intro l fast m _ u out hs hu ho y hy hl
      exact pres_between l m u out hs (fun y hy => hu y hy hl) ho y hy)
    (by
      intro l c y h hl
      obtain ⟨h1, ⟨a, ha, h2⟩, b, hb, h3⟩ := h (fun z hz => hl z (by simp [hz]))
      exact ⟨h1, ⟨a, by simp [ha], h2⟩, b, by simp [hb], h3⟩)
    (by
      intro l c y h hl
      exact ⟨hl y (by simp [h]), ⟨y, by simp [h], le_refl _⟩, y, by simp [h], le_refl _⟩)

/-- Rank error with either method on finite data. -/
theorem errInv_any [FloatFmt.Binary K] : HistInv (K := K) (fun _ _ => True)
    (fun l s P => AllG (fun y => (∀ z ∈ l, z.CanDouble) → Between l y) s P ∧ ((∀ z ∈ l, z.CanDouble) → Within l s P)) where
  closed l fast m hm :=
    { ensure := fun s h items rest hb hj hl =>
        ⟨(betweenInv.closed l fast m hm).ensure s h items rest hb hj.1 hl, fun hf => within_ensure (hj.2 hf)⟩
      pop := fun s h rest hb hj hl =>
        ⟨(betweenInv.closed l fast m hm).pop s h rest hb hj.1 hl, fun hf => within_pop (hj.2 hf)⟩
      push := fun s h items rest buf hb hj hg hl =>
        ⟨(betweenInv.closed l fast m hm).push s h items rest buf hb hj.1 hg hl, fun hf => within_push (hj.2 hf) hg⟩
      compact := fun s h items rest buf n r hb hj hg hn hl hr => by
        refine ⟨(betweenInv.closed l fast m hm).compact s h items rest buf n r hb hj.1 hg hn hl hr, fun hf => ?_⟩
        refine within_compact hb (hj.2 hf) hg hr (fun ci out x ho =>
          isOut_rank ((sorted_pairwise id _).sublist (List.drop_sublist _ _)) ?_ ho x)
        intro y hy
        have hy := (sorted_perm id _).mem_iff.1 (List.mem_of_mem_drop hy)
        rcases List.mem_append.1 hy with h2 | h2
        · exact (hj.1.1 buf (List.mem_of_getElem? hg) y h2 hf).1
        · exact (hj.1.2 ⟨h, items⟩ (by simp) y (List.mem_of_mem_take h2) hf).1 }
  start l c s hc hb hj :=
    ⟨betweenInv.start l c s hc hb hj.1, fun hf => within_start (hj.2 (fun z hz => hf z (by simp [hz])))⟩
  cnt l s n hj := hj

/-- Without fast compaction the ghost field is the code's own counter. -/
theorem counterInv : HistInv (K := K) (fun fast _ => fast = false) (fun _ s _ => s.compactions = s.counters) where
  closed l fast m hm :=
    { ensure := fun s h items rest hb hj hl => by unfold ensureLevel; split <;> simp [hj]
      pop := fun s h rest hb hj hl => hj
      push := fun s h items rest buf hb hj hg hl => hj
      compact := fun s h items rest buf n r hb hj hg hn hl hr => by
        subst hm
        obtain ⟨ci, ctrs, out, hi, hci, -, ho, rfl⟩ := hr
        simp only [IsIndex, Bool.false_eq_true, if_false] at hi
        obtain ⟨c, h1, -, -, h2⟩ := hi
        have h1 : s.counters[h]? = some c := h1
        have h2 : ctrs = s.counters.set h (c + 1) := h2
        simp only [afterSplit, setBuf, h2, hj, List.getD, h1, Option.getD_some] }
  start l c s _ hb hj := hj
  cnt l s n hj := hj

/-! ### Invariants within range -/

/-- Combine an invariant that needs `InR` with `InR`. -/
theorem histInv_range {ok : Bool → CompactionMethod → Prop} {J : List (Fl K) → RCSketch K → List (Frame K) → Prop}
    (hok : ∀ fast m, ok fast m → GoodFor G m)
    (hcl : ∀ l fast m, ok fast m → l.length ≤ n →
      Closed fast m (fun s P => InR G k (bsize n k) l.length s P ∧ J l s P))
    (hst : ∀ l c s, c ≠ [] → Base s [] → J l s [] → J (l ++ c) s [⟨0, c⟩])
    (hcn : ∀ l s n, J l s [] → J l { s with count := n } []) :
    HistInv ok (fun l s P => l.length ≤ n → (∀ y ∈ l, G y) → InR G k (bsize n k) l.length s P ∧ J l s P) where
  closed l fast m h :=
    { ensure := fun s h' items rest hb hj hl h1 h2 => (hcl l fast m h h1).ensure s h' items rest hb (hj h1 h2) hl
      pop := fun s h' rest hb hj hl h1 h2 => (hcl l fast m h h1).pop s h' rest hb (hj h1 h2) hl
      push := fun s h' items rest buf hb hj hg hl h1 h2 =>
        (hcl l fast m h h1).push s h' items rest buf hb (hj h1 h2) hg hl
      compact := fun s h' items rest buf n r hb hj hg hn hl hr h1 h2 =>
        (hcl l fast m h h1).compact s h' items rest buf n r hb (hj h1 h2) hg hn hl hr }
  start l c s hc hb hj h1 h2 := by
    have hj' := hj (by simp at h1; omega) (fun y hy => h2 y (by simp [hy]))
    have := hj'.1.start (c := c) (fun y hy => h2 y (by simp [hy]))
    exact ⟨by simpa using this, hst l c s hc hb hj'.2⟩
  cnt l s n' hj h1 h2 := by
    have := (hj h1 h2).1
    exact ⟨⟨this.hk, this.hB, this.flow, this.good, this.goodP, this.full⟩, hcn l s n' (hj h1 h2).2⟩

/-- Items of low rank are all at level 0. -/
def LowEnd (B : Nat) (l : List (Fl K)) (s : RCSketch K) (P : List (Frame K)) : Prop :=
  ∀ x, rank l x ≤ B / 2 → W (fun b => rank b x) s P = rank l x ∧
    (∀ h b, 1 ≤ h → s.buffers[h]? = some b → rank b x = 0) ∧ ∀ f ∈ P, 1 ≤ f.lvl → rank f.items x = 0

theorem rank_drop_zero {l : List (Fl K)} (hs : l.Pairwise (· ≤ ·)) {x : Fl K} {c : Nat} (h : rank l x ≤ c) :
    rank (l.drop c) x = 0 := by
  induction l generalizing c with
  | nil => simp [rank]
  | cons a l ih =>
    cases c with
    | zero => simpa using h
    | succ c =>
      rw [List.drop_succ_cons]
      by_cases ha : a ≤ x
      · refine ih hs.of_cons ?_
        simp only [rank, List.countP_cons, ha, decide_true, if_true] at h ⊢; omega
      · apply rank_zero_of_lt
        intro y hy
        exact lt_of_lt_of_le (not_le.1 ha) ((List.pairwise_cons.1 hs).1 y (List.mem_of_mem_drop hy))

theorem isOut_rank_zero {m : CompactionMethod} {u out : List (Fl K)} {x : Fl K}
    (ho : rank u x ≤ 2 * rank out x + 1 ∧ 2 * rank out x ≤ rank u x + 1) (h : rank u x = 0) : rank out x = 0 := by
  omega

theorem rank_le_W {s : RCSketch K} {P : List (Frame K)} {h : Nat} {buf : List (Fl K)} (x : Fl K)
    (hg : s.buffers[h]? = some buf) : rank buf x ≤ W (fun b => rank b x) s P := by
  have := W_setBuf (g := fun b => rank b x) s [] P hg
  simp only [rank, List.countP_nil, Nat.mul_zero, Nat.add_zero] at this
  have h2 : rank buf x ≤ 2 ^ h * rank buf x := Nat.le_mul_of_pos_left _ (by positivity)
  unfold rank at *
  omega

theorem lowEnd_closed {fast : Bool} {m : CompactionMethod} (hG : GoodFor G m)
    (hrk : ∀ u out : List (Fl K), u.Pairwise (· ≤ ·) → (∀ y ∈ u, G y) → IsOut m u out → ∀ x,
      rank u x ≤ 2 * rank out x + 1 ∧ 2 * rank out x ≤ rank u x + 1)
    (l : List (Fl K)) (hl : l.length ≤ n) :
    Closed fast m (fun s P => InR G k (bsize n k) l.length s P ∧ LowEnd (bsize n k) l s P) where
  ensure s h items rest hb hj hlen := by
    refine ⟨(InR.closed hG fast hl).ensure s h items rest hb hj.1 hlen, fun x hx => ?_⟩
    obtain ⟨h1, h2, h3⟩ := hj.2 x hx
    refine ⟨by rw [W_ensure (additive_rank x)]; exact h1, ?_, h3⟩
    intro j b hj1 hjb
    unfold ensureLevel at hjb
    rw [if_pos hlen.le] at hjb
    simp only [List.getElem?_append] at hjb
    split at hjb
    · exact h2 j b hj1 hjb
    · have : b = [] := by
        rcases Nat.eq_zero_or_pos (j - s.buffers.length) with h0 | h0
        · rw [h0] at hjb; simpa using hjb.symm
        · rw [List.getElem?_eq_none (by simp; omega)] at hjb; simp at hjb
      subst this; rfl
  pop s h rest hb hj hlen := by
    refine ⟨(InR.closed hG fast hl).pop s h rest hb hj.1 hlen, fun x hx => ?_⟩
    obtain ⟨h1, h2, h3⟩ := hj.2 x hx
    exact ⟨by rw [← W_pop (additive_rank x) s h]; exact h1, h2, fun f hf => h3 f (by simp [hf])⟩
  push s h items rest buf hb hj hg hlen := by
    refine ⟨(InR.closed hG fast hl).push s h items rest buf hb hj.1 hg hlen, fun x hx => ?_⟩
    obtain ⟨h1, h2, h3⟩ := hj.2 x hx
    have hh : h < s.buffers.length := (List.getElem?_eq_some_iff.1 hg).1
    refine ⟨by rw [W_push_all (additive_rank x) s items rest hg]; exact h1, ?_, ?_⟩
    · intro j b hj1 hjb
      simp only [setBuf, set_get _ _ _ _ hh] at hjb
      split at hjb
      · rename_i e; subst e
        obtain rfl : _ = b := by simpa using hjb
        rw [rank_append, h2 j buf hj1 hg, h3 ⟨j, items⟩ (by simp) hj1]
      · exact h2 j b hj1 hjb
    · intro f hf hf1
      rcases List.mem_cons.1 hf with rfl | hf
      · rfl
      · exact h3 f (by simp [hf]) hf1
  compact s h items rest buf m' r hb hj hg hm hlen hr := by
    refine ⟨(InR.closed hG fast hl).compact s h items rest buf m' r hb hj.1 hg hm hlen hr, fun x hx => ?_⟩
    obtain ⟨h1, h2, h3⟩ := hj.2 x hx
    have hh : h < s.buffers.length := (List.getElem?_eq_some_iff.1 hg).1
    obtain ⟨ci, ctrs, hi, hci, ho, hw⟩ := W_compact (additive_rank x) (rest := rest) hg hr
    have hhalf := hj.1.half_le hb hl hg hm hlen hi
    rw [hj.1.hB] at hhalf
    set full := buf ++ items.take m' with hfull
    have hsp : rank (sorted id full) x = rank full x := (additive_rank x).perm _ _ (sorted_perm id full)
    have hfg : ∀ y ∈ sorted id full, G y := by
      intro y hy
      have hy := (sorted_perm id full).mem_iff.1 hy
      rcases List.mem_append.1 hy with h2 | h2
      · exact hj.1.good buf (List.mem_of_getElem? hg) y h2
      · exact hj.1.goodP ⟨h, items⟩ (by simp) y (List.mem_of_mem_take h2)
    have hfr : rank full x ≤ bsize n k / 2 := by
      have e1 := rank_le_W (P := ⟨h, items.drop m'⟩ :: rest) x (setBuf_get (b := full) hh)
      rw [W_push (additive_rank x) s items m' rest hg, h1] at e1
      omega
    have hz : rank ((sorted id full).drop ci) x = 0 := rank_drop_zero (sorted_pairwise id full) (by omega)
    have hoz : rank r.1 x = 0 := by
      have := hrk _ _ ((sorted_pairwise id full).sublist (List.drop_sublist _ _))
        (fun y hy => hfg y (List.mem_of_mem_drop hy)) ho x
      omega
    simp only [hz, hoz, Nat.mul_zero, Nat.add_zero] at hw
    refine ⟨hw.trans h1, ?_, ?_⟩
    · intro j b hj1 hjb
      obtain ⟨ci', ctrs', out, _, _, _, _, rfl⟩ := hr
      simp only [afterSplit, setBuf, List.set_set, set_get _ _ _ _ hh] at hjb
      split at hjb
      · rename_i e; subst e
        obtain rfl : _ = b := by simpa using hjb
        have e1 : rank (items.take m') x = 0 := by
          have := h3 ⟨j, items⟩ (by simp) hj1
          have e : rank items x = rank (items.take m') x + rank (items.drop m') x := by
            rw [← rank_append, List.take_append_drop]
          simp only at this; omega
        have e2 : rank full x = 0 := by rw [hfull, rank_append, h2 j buf hj1 hg, e1]
        have e3 : rank (sorted id full) x = rank ((sorted id full).take ci') x + rank ((sorted id full).drop ci') x := by
          rw [← rank_append, List.take_append_drop]
        omega
      · exact h2 j b hj1 hjb
    · intro f hf hf1
      rcases List.mem_cons.1 hf with rfl | hf
      · exact hoz
      · rcases List.mem_cons.1 hf with rfl | hf
        · have := h3 ⟨h, items⟩ (by simp) hf1
          have e : rank items x = rank (items.take m') x + rank (items.drop m') x := by
            rw [← rank_append, List.take_append_drop]
          simp only at this ⊢; omega
        · exact h3 f (by simp [hf]) hf1

theorem lowEnd_start {B : Nat} (l c : List (Fl K)) (s : RCSketch K) (hj : LowEnd B l s []) :
    LowEnd B (l ++ c) s [⟨0, c⟩] := by
  intro x hx
  rw [rank_append] at hx
  obtain ⟨h1, h2, -⟩ := hj x (by omega)
  refine ⟨by rw [W_start, rank_append, h1], h2, ?_⟩
  intro f hf hf1; simp at hf; subst hf; simp at hf1

end RCSketch
end AQ

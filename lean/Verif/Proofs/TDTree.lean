/-
TDigest: `add_cluster_tree`. It may panic (duplicate means), so everything is about the executions that return.
-/
import Verif.Proofs.TDCluster

set_option linter.unusedSectionVars false
set_option linter.unusedVariables false

namespace AQ
open Prog Spec
variable {K : Type} [Field K] [LinearOrder K] [IsStrictOrderedRing K] [FloatFmt K]

namespace KeyedSumTree

theorem Holds.perm {t : KeyedSumTree K} {c c' : List (Centroid K)} (h : t.Holds c) (hp : c.Perm c') : t.Holds c' :=
  ⟨h.1, h.2.1.trans hp, h.2.2.trans hp.length_eq⟩

theorem insert_holds_partially {t : KeyedSumTree K} {c : List (Centroid K)} (h : t.Holds c) (k w : Fl K) (hk : k ≠ .nan) :
    Partially (t.insert k w) (fun t' => t'.Holds (⟨k, w⟩ :: c)) := by
  by_cases hf : ∀ p ∈ c, p.mean ≠ k
  · exact (insert_holds h k w hk hf).partially
  · push Not at hf
    obtain ⟨p, hp, hpk⟩ := hf
    unfold insert
    rw [KNode.insert_dup k w t.root h.1 ⟨p, h.2.1.mem_iff.2 hp, hpk⟩]
    trivial

theorem fromAux_partially : ∀ (cs : List (Centroid K)) (t : KeyedSumTree K) (c : List (Centroid K)), t.Holds c →
    (∀ p ∈ cs, p.mean ≠ .nan) → Partially (t.fromAux cs) (fun t' => t'.Holds (cs ++ c))
  | [], t, c, h, _ => h
  | a :: cs, t, c, h, hn => by
    unfold fromAux
    rw [partially_bind]
    refine (insert_holds_partially h a.mean a.weight (hn a (by simp))).mono ?_
    intro t' h'
    refine (fromAux_partially cs t' _ h' (fun p hp => hn p (by simp [hp]))).mono ?_
    intro t'' h''
    exact h''.perm List.perm_middle

theorem closestPath_partially (x : Fl K) : ∀ n : KNode K, Partially (KNode.closestPath x n) (fun p => ∀ c ∈ p, c ∈ n.sortedVecKey)
  | .nil => by simp [KNode.closestPath]
  | .node k w s l r => by
    unfold KNode.closestPath
    cases h : Fl.cmp x k with
    | none => trivial
    | some o =>
      cases o with
      | lt =>
        show Partially (KNode.closestPath x l >>= _) _
        rw [partially_bind]
        refine (closestPath_partially x l).mono ?_
        intro p hp c hc
        rcases List.mem_cons.1 hc with rfl | hc
        · simp [KNode.sortedVecKey]
        · simp only [KNode.sortedVecKey, List.mem_append]; exact Or.inl (hp c hc)
      | eq =>
        intro c hc
        rw [List.mem_singleton] at hc
        subst hc
        simp [KNode.sortedVecKey]
      | gt =>
        show Partially (KNode.closestPath x r >>= _) _
        rw [partially_bind]
        refine (closestPath_partially x r).mono ?_
        intro p hp c hc
        rcases List.mem_cons.1 hc with rfl | hc
        · simp [KNode.sortedVecKey]
        · simp only [KNode.sortedVecKey, List.mem_append, List.mem_cons]; exact Or.inr (Or.inr (hp c hc))

/-- `closest_keys` only returns stored pairs. -/
theorem closestKeys_partially (t : KeyedSumTree K) (x : Fl K) :
    Partially (t.closestKeys x) (fun res => ∀ c ∈ res, c ∈ t.sortedVecKey) := by
  unfold closestKeys sortedVecKey
  cases hr : t.root with
  | nil => simp
  | node k w s l r =>
    simp only
    rw [partially_bind]
    refine (closestPath_partially x _).mono ?_
    intro path hp
    rw [partially_bind]
    refine (partially_true _).mono ?_
    intro m _
    cases m with
    | none => trivial
    | some m =>
      intro c hc
      exact hp c (List.mem_filter.1 hc).1

end KeyedSumTree

namespace TDigest

theorem Mid.perm {d : TDigest K} {w m : K} {lo hi : Fl K} {P : K → Prop} (h : Mid d w m lo hi P) {c : List (Centroid K)}
    (hp : c.Perm d.centroids) : Mid { d with centroids := c } w m lo hi P :=
  ⟨fun x hx => h.good x (hp.mem_iff.1 hx), by rw [← h.weight]; exact totalW_perm hp,
    by rw [← h.mass]; exact totalMass_perm hp, h.min, h.max, fun x hx => h.range x (hp.mem_iff.1 hx),
    fun x hx => h.closed x (hp.mem_iff.1 hx)⟩

/-- The tree holds the centroids of the digest in the middle of `add_cluster_tree`. -/
def TMid (d : TDigest K) (t : KeyedSumTree K) (w m : K) (lo hi : Fl K) (P : K → Prop) : Prop :=
  ∃ c, t.Holds c ∧ Mid { d with centroids := c } w m lo hi P

theorem rebuildTree_partially {d : TDigest K} {w m : K} {lo hi : Fl K} {P : K → Prop} (h : Mid d w m lo hi P) :
    Partially d.rebuildTree (fun t => TMid d t w m lo hi P) := by
  unfold rebuildTree
  rw [partially_bind]
  refine (shuffle_perm d.centroids).partially.mono ?_
  intro cs hp
  refine (KeyedSumTree.fromAux_partially cs _ [] KeyedSumTree.new_holds
    (fun p hpm => (h.good p (hp.mem_iff.1 hpm)).mean_ne_nan)).mono ?_
  intro t ht
  rw [List.append_nil] at ht
  exact ⟨d.centroids, ht.perm hp, h⟩

theorem rebuildTree_size {d : TDigest K} {w m : K} {lo hi : Fl K} {P : K → Prop} (h : Mid d w m lo hi P) :
    Partially d.rebuildTree (fun t => t.size = d.centroids.length) := by
  unfold rebuildTree
  rw [partially_bind]
  refine (shuffle_perm d.centroids).partially.mono ?_
  intro cs hp
  refine (KeyedSumTree.fromAux_partially cs _ [] KeyedSumTree.new_holds
    (fun p hpm => (h.good p (hp.mem_iff.1 hpm)).mean_ne_nan)).mono ?_
  intro t ht
  rw [ht.2.2, List.append_nil, hp.length_eq]

theorem tmid_insert {d : TDigest K} {t : KeyedSumTree K} {w m : K} {lo hi : Fl K} {P : K → Prop}
    (h : TMid d t w m lo hi P) {x : Centroid K} (hx : Good x) (hr : lo ≤ x.mean ∧ x.mean ≤ hi) (hPx : P x.weight.toK) :
    Partially (t.insert x.mean x.weight) (fun t' =>
      TMid d t' (w + x.weight.toK) (m + x.mean.toK * x.weight.toK) lo hi P) := by
  obtain ⟨c, hh, hm⟩ := h
  refine (KeyedSumTree.insert_holds_partially hh x.mean x.weight hx.mean_ne_nan).mono ?_
  intro t' ht'
  refine ⟨x :: c, ht', ⟨?_, ?_, ?_, hm.min, hm.max, ?_, ?_⟩⟩
  · intro e he
    rcases List.mem_cons.1 he with rfl | he
    · exact hx
    · exact hm.good e he
  · show totalW (x :: c) = _
    rw [totalW_cons, ← hm.weight, add_comm]
  · show totalMass (x :: c) = _
    rw [totalMass_cons, ← hm.mass, add_comm]
  · intro e he
    rcases List.mem_cons.1 he with rfl | he
    · exact hr
    · exact hm.range e he
  · intro e he
    rcases List.mem_cons.1 he with rfl | he
    · exact hPx
    · exact hm.closed e he

/-- Removing the pair with the key of `a` from a table with distinct keys. -/
theorem perm_cons_filter {c : List (Centroid K)} (hd : (c.map (·.mean)).Nodup) {a : Centroid K} (ha : a ∈ c) :
    c.Perm (a :: c.filter (fun p => p.mean ≠ a.mean)) := by
  obtain ⟨s, t, rfl⟩ := List.append_of_mem ha
  have h1 : ∀ p ∈ s ++ t, p.mean ≠ a.mean := by
    simp only [List.map_append, List.map_cons] at hd
    have := (List.nodup_middle.1 hd)
    rw [List.nodup_cons, ← List.map_append] at this
    intro p hp he
    exact this.1 (List.mem_map.2 ⟨p, hp, he⟩)
  have h2 : (s ++ a :: t).filter (fun p => p.mean ≠ a.mean) = s ++ t := by
    rw [List.filter_append, List.filter_cons_of_neg (by simp), List.filter_eq_self.2, List.filter_eq_self.2]
    · intro p hp; simpa using h1 p (List.mem_append_right _ hp)
    · intro p hp; simpa using h1 p (List.mem_append_left _ hp)
  rw [h2]
  exact List.perm_middle

theorem tmid_merge [FloatFmt.Exact K] {d : TDigest K} {t : KeyedSumTree K} {w m : K} {lo hi : Fl K} {P : K → Prop}
    (hP : ∀ a b, P a → P b → P (a + b)) (h : TMid d t w m lo hi P) {x a : Centroid K} (hx : Good x)
    (hr : lo ≤ x.mean ∧ x.mean ≤ hi) (hPx : P x.weight.toK) (ha : a ∈ t.sortedVecKey) :
    Partially (t.delete a.mean >>= fun t1 =>
        t1.insert ((a.mean * a.weight + x.mean * x.weight) / (a.weight + x.weight)) (a.weight + x.weight))
      (fun t' => TMid d t' (w + x.weight.toK) (m + x.mean.toK * x.weight.toK) lo hi P) := by
  obtain ⟨c, hh, hm⟩ := h
  have hac : a ∈ c := hh.2.1.mem_iff.1 ha
  have hnd : (c.map (·.mean)).Nodup := by
    refine (hh.2.1.map _).nodup_iff.1 ?_
    have := hh.1.1
    rw [← List.pairwise_map] at this
    exact this.imp (fun h => ne_of_lt h)
  have hperm := perm_cons_filter hnd hac
  have hga := hm.good a hac
  obtain ⟨mean, e1, e2, e3, e4, e5⟩ := merge_two hga hx (hm.range a hac) hr
  rw [partially_bind]
  refine (KeyedSumTree.delete_holds hh a.mean ⟨a, hac, rfl⟩).partially.mono ?_
  intro t1 h1
  rw [e1, e2]
  refine (KeyedSumTree.insert_holds_partially h1 _ _ (by simp)).mono ?_
  intro t' h'
  have hpos : 0 < a.weight.toK + x.weight.toK := by linarith [hga.weight_pos, hx.weight_pos]
  have hw := totalW_perm hperm
  have hms := totalMass_perm hperm
  rw [totalW_cons] at hw
  rw [totalMass_cons] at hms
  have hw' := hm.weight
  have hms' := hm.mass
  simp only at hw' hms'
  have hsub : ∀ e ∈ c.filter (fun p => p.mean ≠ a.mean), e ∈ c := fun e he => (List.mem_filter.1 he).1
  refine ⟨_, h', ⟨?_, ?_, ?_, hm.min, hm.max, ?_, ?_⟩⟩
  · intro e he
    rcases List.mem_cons.1 he with rfl | he
    · exact ⟨⟨_, rfl⟩, _, hpos, rfl⟩
    · exact hm.good e (hsub e he)
  · show totalW (_ :: _) = _
    rw [totalW_cons]
    change a.weight.toK + x.weight.toK + _ = _
    linarith
  · show totalMass (_ :: _) = _
    rw [totalMass_cons]
    change mean * (a.weight.toK + x.weight.toK) + _ = _
    rw [e3]
    linarith
  · intro e he
    rcases List.mem_cons.1 he with rfl | he
    · exact ⟨e4, e5⟩
    · exact hm.range e (hsub e he)
  · intro e he
    rcases List.mem_cons.1 he with rfl | he
    · exact hP _ _ (hm.closed a hac) hPx
    · exact hm.closed e (hsub e he)

section
variable [FloorRing K]

theorem chooseCentroid_mem (d : TDigest K) (t : KeyedSumTree K) (x : Centroid K) (total : Fl K) (Q : Centroid K → Prop) :
    ∀ (cs : List (Centroid K)) (best : Option (Centroid K)), (∀ c ∈ cs, Q c) → (∀ c, best = some c → Q c) →
    Partially (d.chooseCentroid t x total cs best) (fun o => ∀ c, o = some c → Q c)
  | [], best, _, hb => hb
  | c :: cs, best, hi, hb => by
    have h1 : Q c := hi c (by simp)
    have h2 : ∀ j ∈ cs, Q j := fun j hj => hi j (by simp [hj])
    unfold chooseCentroid
    rw [partially_bind]
    refine (partially_true _).mono ?_
    intro below _
    split
    · cases best with
      | none => exact chooseCentroid_mem d t x total Q cs (some c) h2 (by rintro j ⟨⟩; exact h1)
      | some o =>
        simp only
        split
        · exact chooseCentroid_mem d t x total Q cs (some c) h2 (by rintro j ⟨⟩; exact h1)
        · exact chooseCentroid_mem d t x total Q cs (some o) h2 hb
    · exact chooseCentroid_mem d t x total Q cs best h2 hb

theorem tmid_place [FloatFmt.Exact K] {d : TDigest K} {t : KeyedSumTree K} {w m : K} {lo hi : Fl K} {P : K → Prop}
    (hP : ∀ a b, P a → P b → P (a + b)) (h : TMid d t w m lo hi P) {x : Centroid K} (hx : Good x)
    (hr : lo ≤ x.mean ∧ x.mean ≤ hi) (hPx : P x.weight.toK) (total : Fl K) :
    Partially (placeTree d t x total) (fun t' => TMid d t' (w + x.weight.toK) (m + x.mean.toK * x.weight.toK) lo hi P) := by
  unfold placeTree
  rw [partially_bind]
  refine (KeyedSumTree.closestKeys_partially t x.mean).mono ?_
  intro res hres
  split
  · exact tmid_insert h hx hr hPx
  · rw [partially_bind]
    refine (chooseCentroid_mem d t x total (fun c => c ∈ t.sortedVecKey) res none hres (by simp)).mono ?_
    intro best hb
    cases best with
    | none => exact tmid_insert h hx hr hPx
    | some a => exact tmid_merge hP h hx hr hPx (hb a rfl)

/-- A tree of at most `lim` keys, or rebuilt from a digest that just went through a merging pass. -/
def TCompact (d0 : TDigest K) (t : KeyedSumTree K) (lim : Nat) : Prop :=
  t.size ≤ lim ∨ ∃ d1 d2 : TDigest K, (∀ c ∈ d1.centroids, Good c) ∧ SameParams d1 d0 ∧
    CanReturn (d1.addCentroidBuffer []) d2 ∧ t.size = d2.centroids.length

theorem tmid_loop [FloatFmt.Exact K] {P : K → Prop} {g lo hi : Fl K} (hP : ∀ a b, P a → P b → P (a + b))
    (hlo : lo ≠ .nan) (hhi : hi ≠ .nan) :
    ∀ (xs : List (Centroid K)) (d : TDigest K) (t : KeyedSumTree K) (w m : K) (total : Fl K), TMid d t w m lo hi P →
    (∀ x ∈ xs, Good x ∧ (lo ≤ x.mean ∧ x.mean ≤ hi) ∧ P x.weight.toK) →
    Partially (addClusterTreeLoop g d t total xs) (fun r =>
      (TMid r.1 r.2 (w + totalW xs) (m + totalMass xs) lo hi P ∧ SameParams r.1 d) ∧
      (xs = [] → r = (d, t)) ∧ (xs ≠ [] → ∃ lim, Fl.toUsize (g * d.compressFactor) = some lim ∧ TCompact d r.2 lim))
  | [], d, t, w, m, total, h, hx => by
    rw [totalW_nil, totalMass_nil, add_zero, add_zero]
    exact ⟨⟨h, SameParams.refl d⟩, fun _ => rfl, fun hne => absurd rfl hne⟩
  | x :: xs, d, t, w, m, total, h, hx => by
    obtain ⟨g1, g2, g3⟩ := hx x (by simp)
    have hx' : ∀ y ∈ xs, Good y ∧ (lo ≤ y.mean ∧ y.mean ≤ hi) ∧ P y.weight.toK := fun y hy => hx y (by simp [hy])
    unfold addClusterTreeLoop
    rw [partially_bind]
    refine (tmid_place hP h g1 g2 g3 total).mono ?_
    intro t1 h1
    rw [totalW_cons, totalMass_cons, ← add_assoc, ← add_assoc]
    cases hl : Fl.toUsize (g * d.compressFactor) with
    | none => exact trivial
    | some lim =>
    rw [unwrap_some, bind_ret]
    split
    · rw [partially_bind]
      obtain ⟨c, hh, hm⟩ := h1
      have hmid : Mid { d with centroids := t1.sortedVecKey } _ _ lo hi P := hm.perm hh.2.1
      refine ((mid_merge hP hlo hhi hmid).partially.and ((partially_iff _ _).2 fun a ha => ha)).mono ?_
      rintro d1 ⟨⟨m1, p1⟩, ret⟩
      rw [partially_bind]
      refine ((rebuildTree_partially m1).and (rebuildTree_size m1)).mono ?_
      rintro t2 ⟨h2, s2⟩
      refine (tmid_loop hP hlo hhi xs d1 t2 _ _ _ h2 hx').mono ?_
      rintro r ⟨⟨r1, r2⟩, r3, r4⟩
      refine ⟨⟨r1, r2.trans p1⟩, fun hne => by simp at hne, fun _ => ⟨lim, rfl, ?_⟩⟩
      cases xs with
      | nil =>
        rw [r3 rfl]
        exact Or.inr ⟨_, d1, hmid.good, ⟨rfl, rfl, rfl⟩, ret, s2⟩
      | cons y ys =>
        obtain ⟨lim', e, hc⟩ := r4 (by simp)
        rw [p1.1, show ({ d with centroids := t1.sortedVecKey } : TDigest K).compressFactor = d.compressFactor from rfl, hl] at e
        obtain rfl : lim = lim' := Option.some.inj e
        rcases hc with hc | ⟨e1, e2, c1, c2, c3, c4⟩
        · exact Or.inl hc
        · exact Or.inr ⟨e1, e2, c1, c2.trans p1, c3, c4⟩
    · rename_i hle
      refine (tmid_loop hP hlo hhi xs d t1 _ _ _ h1 hx').mono ?_
      rintro r ⟨r1, r3, r4⟩
      refine ⟨r1, fun hne => by simp at hne, fun _ => ?_⟩
      cases xs with
      | nil =>
        rw [r3 rfl]
        exact ⟨lim, rfl, Or.inl (not_lt.1 hle)⟩
      | cons y ys =>
        rw [← hl]
        exact r4 (by simp)

/-- The common end of the proofs for `add_cluster` and `add_cluster_tree`. -/
theorem cinv_of_mid {d d' : TDigest K} {sup cs : List (Centroid K)} (h : d.CInv sup)
    (hsup : ∀ c ∈ sup, Good c) (hcs : ∀ c ∈ cs, Good c ∧ InRange c) {lo hi : Fl K}
    (u1 : lo ≤ d.min) (u2 : d.max ≤ hi) (u3 : ∀ c ∈ cs, lo ≤ c.mean ∧ c.mean ≤ hi)
    (u4 : lo = d.min ∨ ∃ c ∈ cs, c.mean = lo) (u5 : hi = d.max ∨ ∃ c ∈ cs, c.mean = hi)
    (u6 : cs = [] → lo = d.min ∧ hi = d.max)
    (m1 : Mid d' (totalW sup + totalW cs) (totalMass sup + totalMass cs) lo hi (fun _ => True))
    (cl : ∀ P : K → Prop, (∀ a b, P a → P b → P (a + b)) →
        (∀ c ∈ sup ++ cs, P c.weight.toK) → ∀ c ∈ d'.centroids, P c.weight.toK) : d'.CInv (sup ++ cs) := by
  have hgs : ∀ c ∈ sup ++ cs, Good c := by
    intro c hc
    rcases List.mem_append.1 hc with hc | hc
    · exact hsup c hc
    · exact (hcs c hc).1
  have hlim := fun hne => limits_eq h (fun c hc => (hcs c hc).2) u1 u2 u3 u4 u5 hne
  have hw : totalW d'.centroids = totalW (sup ++ cs) := by rw [m1.weight, totalW_append]
  refine ⟨m1.good, hw, ?_, ?_, ?_, ?_, ?_, ?_, ?_, cl⟩
  · rw [m1.mass, totalMass_append]
  · constructor
    · intro hnil
      by_contra hne
      have := totalW_pos hgs hne
      rw [← hw, hnil, totalW_nil] at this
      exact lt_irrefl _ this
    · intro hnil
      by_contra hne
      have := totalW_pos m1.good hne
      rw [hw, hnil, totalW_nil] at this
      exact lt_irrefl _ this
  · intro hnil
    rw [List.append_eq_nil_iff] at hnil
    obtain ⟨a1, a2⟩ := u6 hnil.2
    rw [m1.min, m1.max, a1, a2]
    exact h.minmax_nil hnil.1
  · intro hne; rw [m1.min]; exact (hlim hne).1
  · intro hne; rw [m1.max]; exact (hlim hne).2
  · intro c hc; rw [m1.min]; exact (m1.range c hc).1
  · intro c hc; rw [m1.max]; exact (m1.range c hc).2

theorem addClusterTree_spec [FloatFmt.Exact K] {d : TDigest K} {sup cs : List (Centroid K)} {g : Fl K} (h : d.CInv sup)
    (hsup : ∀ c ∈ sup, Good c) (hcs : ∀ c ∈ cs, Good c ∧ InRange c) :
    Partially (d.addClusterTree cs g) (fun d' => (d'.CInv (sup ++ cs) ∧ SameParams d' d) ∧
      d'.centroids.Pairwise (fun a b => a.mean < b.mean) ∧
      (cs ≠ [] → ∃ lim, Fl.toUsize (g * d.compressFactor) = some lim ∧ (d'.centroids.length ≤ lim ∨
        ∃ d1 d2 : TDigest K, (∀ c ∈ d1.centroids, Good c) ∧ SameParams d1 d ∧ CanReturn (d1.addCentroidBuffer []) d2 ∧
          d'.centroids.length = d2.centroids.length))) := by
  obtain ⟨hn1, hn2⟩ := cinv_ne_nan h hsup
  obtain ⟨lo, hi, e, n1, n2, u1, u2, u3, u4, u5, u6⟩ := updateLimits_spec d cs (fun c hc => (hcs c hc).1) hn1 hn2
  have key : ∀ P : K → Prop, (∀ a b, P a → P b → P (a + b)) → (∀ c ∈ sup ++ cs, P c.weight.toK) →
      Partially (d.addClusterTree cs g)
        (fun d' => (Mid d' (totalW sup + totalW cs) (totalMass sup + totalMass cs) lo hi P ∧ SameParams d' d) ∧
          d'.centroids.Pairwise (fun a b => a.mean < b.mean) ∧
          (cs ≠ [] → ∃ lim, Fl.toUsize (g * d.compressFactor) = some lim ∧ (d'.centroids.length ≤ lim ∨
            ∃ d1 d2 : TDigest K, (∀ c ∈ d1.centroids, Good c) ∧ SameParams d1 d ∧ CanReturn (d1.addCentroidBuffer []) d2 ∧
              d'.centroids.length = d2.centroids.length))) := by
    intro P hP hPs
    have hmid : Mid { d with min := lo, max := hi } (totalW sup) (totalMass sup) lo hi P := by
      refine ⟨h.good, h.weight, h.mass, rfl, rfl, ?_, ?_⟩
      · intro c hc
        exact ⟨u1.trans (h.min_le c hc), (h.le_max c hc).trans u2⟩
      · exact h.closed P hP (fun c hc => hPs c (List.mem_append_left _ hc))
    unfold addClusterTree
    rw [e, bind_ret, partially_bind]
    refine (rebuildTree_partially hmid).mono ?_
    intro t ht
    rw [partially_bind]
    refine (tmid_loop hP n1 n2 cs _ t _ _ _ ht (fun c hc => ⟨(hcs c hc).1, u3 c hc, hPs c (List.mem_append_right _ hc)⟩)).mono ?_
    rintro ⟨d1, t1⟩ ⟨⟨⟨c, hh, hm⟩, p1⟩, -, hsz⟩
    refine ⟨⟨hm.perm hh.2.1, p1⟩, hh.1.1, fun hne => ?_⟩
    obtain ⟨lim, e, hc⟩ := hsz hne
    refine ⟨lim, e, ?_⟩
    rw [show t1.sortedVecKey.length = t1.size from hh.2.1.length_eq.trans hh.2.2.symm]
    exact hc
  have hcl : Partially (d.addClusterTree cs g) (fun d' => ∀ P : K → Prop, (∀ a b, P a → P b → P (a + b)) →
        (∀ c ∈ sup ++ cs, P c.weight.toK) → ∀ c ∈ d'.centroids, P c.weight.toK) := by
    refine (partially_iff _ _).2 (fun d' hd' P hP hPs => ?_)
    exact ((partially_iff _ _).1 (key P hP hPs) d' hd').1.1.closed
  refine ((key (fun _ => True) (by simp) (by simp)).and hcl).mono ?_
  rintro d' ⟨⟨⟨m1, p1⟩, c1⟩, cl⟩
  exact ⟨⟨cinv_of_mid h hsup hcs u1 u2 u3 u4 u5 u6 m1 cl, p1⟩, c1⟩

/-- `add_cluster_tree` panics on a digest with two equal means: rebuilding the tree inserts a key twice. -/
theorem fromAux_dup : ∀ (cs : List (Centroid K)) (t : KeyedSumTree K) (c : List (Centroid K)), t.Holds c →
    (∀ p ∈ cs, p.mean ≠ .nan) → ¬ ((cs ++ c).map (·.mean)).Nodup → Panics (t.fromAux cs)
  | [], t, c, h, _, hd => by
    exfalso
    apply hd
    rw [List.nil_append]
    refine (h.2.1.map _).nodup_iff.1 ?_
    have := h.1.1
    rw [← List.pairwise_map] at this
    exact this.imp (fun h => ne_of_lt h)
  | a :: cs, t, c, h, hn, hd => by
    unfold KeyedSumTree.fromAux
    by_cases hf : ∀ p ∈ c, p.mean ≠ a.mean
    · refine panics_of_always ((KeyedSumTree.insert_holds h a.mean a.weight (hn a (by simp)) hf).mono ?_)
      intro t' h'
      refine fromAux_dup cs t' _ h' (fun p hp => hn p (by simp [hp])) ?_
      intro hd'
      apply hd
      exact (List.perm_middle.map _).nodup_iff.1 hd'
    · push Not at hf
      obtain ⟨p, hp, hpk⟩ := hf
      unfold KeyedSumTree.insert
      rw [KNode.insert_dup a.mean a.weight t.root h.1 ⟨p, h.2.1.mem_iff.2 hp, hpk⟩]
      intro h; cases h


/-! ### Histories of all inserting calls, without assumptions about the growth limit -/

theorem mid_loop_partially [FloatFmt.Exact K] {P : K → Prop} {g lo hi : Fl K}
    (hP : ∀ a b, P a → P b → P (a + b)) (hlo : lo ≠ .nan) (hhi : hi ≠ .nan) :
    ∀ (xs : List (Centroid K)) (d : TDigest K) (w m : K) (total : Fl K), Mid d w m lo hi P →
    (∀ x ∈ xs, Good x ∧ (lo ≤ x.mean ∧ x.mean ≤ hi) ∧ P x.weight.toK) →
    Partially (addClusterLoop g d total xs) (fun d' =>
      Mid d' (w + totalW xs) (m + totalMass xs) lo hi P ∧ SameParams d' d)
  | [], d, w, m, total, h, hx => by
    rw [totalW_nil, totalMass_nil, add_zero, add_zero]
    exact ⟨h, SameParams.refl d⟩
  | x :: xs, d, w, m, total, h, hx => by
    obtain ⟨g1, g2, g3⟩ := hx x (by simp)
    unfold addClusterLoop
    rw [partially_bind]
    refine (mid_place hP h g1 g2 g3 total).partially.mono ?_
    rintro d1 ⟨⟨m1, p1⟩, -⟩
    rw [partially_bind]
    have hl : Partially (d1.limitGrowth g) (fun d' =>
        Mid d' (w + x.weight.toK) (m + x.mean.toK * x.weight.toK) lo hi P ∧ SameParams d' d1) := by
      unfold limitGrowth
      rw [partially_bind]
      refine (partially_true _).mono ?_
      intro lim _
      split
      · exact (mid_merge hP hlo hhi m1).partially
      · exact ⟨m1, SameParams.refl d1⟩
    refine hl.mono ?_
    rintro d2 ⟨m2, p2⟩
    refine (mid_loop_partially hP hlo hhi xs d2 _ _ _ m2 (fun y hy => hx y (by simp [hy]))).mono ?_
    rintro d3 ⟨m3, p3⟩
    refine ⟨?_, p3.trans (p2.trans p1)⟩
    rw [totalW_cons, totalMass_cons, ← add_assoc, ← add_assoc]
    exact m3

theorem addCluster_partially [FloatFmt.Exact K] {d : TDigest K} {sup cs : List (Centroid K)} {g : Fl K} (h : d.CInv sup)
    (hsup : ∀ c ∈ sup, Good c) (hcs : ∀ c ∈ cs, Good c ∧ InRange c) :
    Partially (d.addCluster cs g) (fun d' => d'.CInv (sup ++ cs) ∧ SameParams d' d) := by
  obtain ⟨hn1, hn2⟩ := cinv_ne_nan h hsup
  obtain ⟨lo, hi, e, n1, n2, u1, u2, u3, u4, u5, u6⟩ := updateLimits_spec d cs (fun c hc => (hcs c hc).1) hn1 hn2
  have key : ∀ P : K → Prop, (∀ a b, P a → P b → P (a + b)) → (∀ c ∈ sup ++ cs, P c.weight.toK) →
      Partially (d.addCluster cs g)
        (fun d' => Mid d' (totalW sup + totalW cs) (totalMass sup + totalMass cs) lo hi P ∧ SameParams d' d) := by
    intro P hP hPs
    have hmid : Mid { d with min := lo, max := hi } (totalW sup) (totalMass sup) lo hi P := by
      refine ⟨h.good, h.weight, h.mass, rfl, rfl, ?_, ?_⟩
      · intro c hc
        exact ⟨u1.trans (h.min_le c hc), (h.le_max c hc).trans u2⟩
      · exact h.closed P hP (fun c hc => hPs c (List.mem_append_left _ hc))
    unfold addCluster
    rw [e, bind_ret]
    exact (mid_loop_partially hP n1 n2 cs _ _ _ _ hmid
      (fun c hc => ⟨(hcs c hc).1, u3 c hc, hPs c (List.mem_append_right _ hc)⟩)).mono (fun d' h' => ⟨h'.1, h'.2⟩)
  have hcl : Partially (d.addCluster cs g) (fun d' => ∀ P : K → Prop, (∀ a b, P a → P b → P (a + b)) →
        (∀ c ∈ sup ++ cs, P c.weight.toK) → ∀ c ∈ d'.centroids, P c.weight.toK) := by
    refine (partially_iff _ _).2 (fun d' hd' P hP hPs => ?_)
    exact ((partially_iff _ _).1 (key P hP hPs) d' hd').1.closed
  refine ((key (fun _ => True) (by simp) (by simp)).and hcl).mono ?_
  rintro d' ⟨⟨m1, p1⟩, cl⟩
  exact ⟨cinv_of_mid h hsup hcs u1 u2 u3 u4 u5 u6 m1 cl, p1⟩

/-- Any history of inserting calls that returns conserves everything. -/
theorem execAOps_partially [FloatFmt.Exact K] : ∀ (ops : List (AOp K)) (d : TDigest K) (sup : List (Centroid K)), d.CInv sup →
    (∀ c ∈ sup, Good c) → (∀ c ∈ suppliedA ops, Good c ∧ InRange c) →
    Partially (d.execAOps ops) (fun d' => d'.CInv (sup ++ suppliedA ops) ∧ SameParams d' d)
  | [], d, sup, h, _, _ => by
    simp only [execAOps, suppliedA, List.flatMap_nil, List.append_nil, partially_ret]
    exact ⟨h, SameParams.refl d⟩
  | o :: os, d, sup, h, hs, hg => by
    have hg1 : ∀ c ∈ o.supplied, Good c ∧ InRange c := fun c hc => hg c (by simp [suppliedA]; exact Or.inl hc)
    have hg2 : ∀ c ∈ suppliedA os, Good c ∧ InRange c := fun c hc => hg c (by
      simp only [suppliedA, List.flatMap_cons, List.mem_append] at hc ⊢; exact Or.inr hc)
    have hstep : Partially (o.exec d) (fun d' => d'.CInv (sup ++ o.supplied) ∧ SameParams d' d) := by
      cases o with
      | ins o =>
        simp only [AOp.exec, exec_eq, AOp.supplied]
        exact ((addCentroidBuffer_inv h hs (fun c hc => (hg1 c hc).1) (fun c hc => (hg1 c hc).2)).partially.and
          (addCentroidBuffer_params d o.supplied)).mono (fun d' h' => ⟨h'.1.toCInv, h'.2⟩)
      | cluster cs g => exact addCluster_partially h hs hg1
      | clusterTree cs g => exact (addClusterTree_spec h hs hg1).mono (fun d' h' => h'.1)
    unfold execAOps
    rw [partially_bind]
    refine hstep.mono ?_
    rintro d' ⟨h', p'⟩
    refine (execAOps_partially os d' (sup ++ o.supplied) h' (by
      intro c hc
      rcases List.mem_append.1 hc with hc | hc
      · exact hs c hc
      · exact (hg1 c hc).1) hg2).mono ?_
    intro d'' h''
    exact ⟨by simpa [suppliedA, List.flatMap_cons, List.append_assoc] using h''.1, h''.2.trans p'⟩

omit [FloorRing K] in
/-- The index chosen by `add_cluster` passed the size test. -/
theorem chooseIndex_fits (d : TDigest K) (x : Centroid K) (total : Fl K) (Q : Nat → Prop)
    (hQ : ∀ i (h : i < d.centroids.length), Fl.lt (Fl.fabs (d.kSize (x.add d.centroids[i]) total)) (Fl.lit 1) = true → Q i) :
    ∀ (is : List Nat) (best : Option Nat), (∀ i ∈ is, i < d.centroids.length) →
    (∀ i, best = some i → i < d.centroids.length ∧ Q i) →
    Always (d.chooseIndex x total is best) (fun o => ∀ i, o = some i → i < d.centroids.length ∧ Q i)
  | [], best, _, hb => hb
  | i :: is, best, hi, hb => by
    have h1 : i < d.centroids.length := hi i (by simp)
    have h2 : ∀ j ∈ is, j < d.centroids.length := fun j hj => hi j (by simp [hj])
    unfold chooseIndex
    rw [idx_eq h1, bind_ret]
    simp only
    split
    · next ht =>
      have hq := hQ i h1 ht
      cases best with
      | none => exact chooseIndex_fits d x total Q hQ is (some i) h2 (by rintro j ⟨⟩; exact ⟨h1, hq⟩)
      | some j =>
        simp only
        rw [idx_eq (hb j rfl).1, bind_ret]
        split
        · exact chooseIndex_fits d x total Q hQ is (some i) h2 (by rintro j ⟨⟩; exact ⟨h1, hq⟩)
        · exact chooseIndex_fits d x total Q hQ is (some j) h2 hb
    · exact chooseIndex_fits d x total Q hQ is best h2 hb

end
end TDigest
end AQ

/-
History rules for arbitrary public calls on an `RCSketch2`.
-/
import Verif.Proofs.RC2Levels
import Verif.Spec.RC2Calls

set_option linter.unusedSectionVars false
set_option linter.unusedVariables false

namespace AQ
open Prog Spec
variable {K : Type} [Field K] [LinearOrder K] [IsStrictOrderedRing K] [FloatFmt K]

namespace RCSketch2
open RCSketch (GoodFor goodFor_default)
variable {sec : Nat → Nat} {fast : Bool} {m : CompactionMethod}

/-- Condition on the compactions a call may perform. -/
def okCall (ok : Bool → CompactionMethod → Prop) : Call2 K → Prop
  | .ins o => ok o.fast o.method
  | .insert _ f m => ok f m
  | .insertBatch _ f m => ok f m
  | .compress f m => ok f m
  | .grow => True
  | .updateSections _ => True

/-- What holds between calls: `l` are the items so far, `n` the counted ones. -/
structure St (sec : Nat → Nat) (k : Nat) (I : List (Fl K) → List (Level2 K) → Prop) (l : List (Fl K)) (n : Nat)
    (s : RCSketch2 K) : Prop where
  core : Core sec l.length s
  lt : lens s.levels < caps sec s.levels
  book : Book k n s
  inv : I l s.levels

variable {I : List (Fl K) → List (Level2 K) → Prop} {ok : Bool → CompactionMethod → Prop} {k n : Nat} {l : List (Fl K)}
  {s : RCSketch2 K}

theorem updateSections_noop {lv : Level2 K} (h : LvlOK lv) : updateSections lv = lv := by
  unfold updateSections
  rw [if_neg (by have := h.ctr; omega)]

theorem updateSectionsAt_noop (h : ∀ lv ∈ s.levels, LvlOK lv) (i : Nat) :
    (i < s.levels.length → s.updateSectionsAt i = .ret s) ∧ (s.levels.length ≤ i → s.updateSectionsAt i = .fail .oob) := by
  unfold updateSectionsAt
  constructor
  · intro hi
    rw [List.getElem?_eq_getElem hi]
    simp only [updateSections_noop (h _ (List.getElem_mem hi)), List.set_getElem_self]
  · intro hi
    rw [List.getElem?_eq_none hi]

theorem flow_grow : ∀ {N : Nat} {ls : List (Level2 K)}, Flow2 N ls → Flow2 N (ls ++ [newLevel []]) := by
  intro N ls
  induction ls generalizing N with
  | nil => intro _; exact ⟨0, by simp [newLevel], by simp [newLevel], trivial⟩
  | cons a ls ih =>
    rintro ⟨r, h1, h2, h3⟩
    exact ⟨r, h1, h2, ih h3⟩

theorem lens_grow (ls : List (Level2 K)) : lens (ls ++ [newLevel []]) = lens ls := by simp [lens, newLevel]
theorem caps_grow (ls : List (Level2 K)) : caps sec ls ≤ caps sec (ls ++ [newLevel []]) := by simp [caps]

theorem wt_append (f : List Nat) (a : Nat) : wsum (f ++ [a]) = wsum f + 2 ^ f.length * a := by
  induction f with
  | nil => simp [wsum]
  | cons b f ih => simp only [List.cons_append, wsum, ih, List.length_cons, pow_succ]; ring

theorem wt4_append (f : List Nat) (a : Nat) : wsum4 (f ++ [a]) = wsum4 f + 4 ^ f.length * a := by
  induction f with
  | nil => simp [wsum4]
  | cons b f ih => simp only [List.cons_append, wsum4, ih, List.length_cons, pow_succ]; ring

theorem Wt_grow {g : List (Fl K) → Nat} (hg : g [] = 0) (ls : List (Level2 K)) : Wt g (ls ++ [newLevel []]) = Wt g ls := by
  simp [Wt, wt_append, newLevel, hg]

theorem comps_grow (ls : List (Level2 K)) : comps (ls ++ [newLevel []]) = comps ls ∧ comps4 (ls ++ [newLevel []]) = comps4 ls := by
  simp [comps, comps4, wt_append, wt4_append, newLevel]

theorem good_grow {G : Fl K → Prop} {ls : List (Level2 K)} (h : ∀ lv ∈ ls, ∀ y ∈ lv.buf, G y) :
    ∀ lv ∈ ls ++ [newLevel []], ∀ y ∈ lv.buf, G y := by
  intro lv hlv
  rcases List.mem_append.1 hlv with hlv | hlv
  · exact h lv hlv
  · simp at hlv; subst hlv; simp [newLevel]

theorem lvl_grow {ls : List (Level2 K)} (h : ∀ lv ∈ ls, LvlOK lv) : ∀ lv ∈ ls ++ [newLevel []], LvlOK lv := by
  intro lv hlv
  rcases List.mem_append.1 hlv with hlv | hlv
  · exact h lv hlv
  · simp at hlv; subst hlv; exact lvlOK_new _

/-- A batch, seen by every invariant. -/
theorem batch_st (hs : SecOK sec) (hi : Hist2 sec ok I) (hok : ok fast m) (h : St sec k I l n s) (xs : List (Fl K)) (c : Nat) :
    Partially (insertBatch sec fast m xs s >>= fun s' => .ret { s' with count := s'.count + c })
      (St sec k I (l ++ xs) (n + c)) := by
  rw [partially_bind]
  refine ((insertBatchLoop_core hs _ xs _ s h.core h.lt).and (insertBatchLoop_partially hi hok _ xs l s h.book h.inv)).mono ?_
  rintro s' ⟨⟨h1, h2⟩, hb, h3⟩
  refine ⟨⟨h1.lvl, ?_, h1.size, h1.ne⟩, h2, ⟨hb.size, hb.ne, hb.hk, by simp [hb.hn]⟩, h3⟩
  rw [List.length_append]; exact h1.flow

theorem insertBatch_ret (xs : List (Fl K)) (s : RCSketch2 K) :
    insertBatch sec fast m xs s = insertBatch sec fast m xs s >>= fun s' => .ret { s' with count := s'.count + 0 } := by
  have : (fun s' : RCSketch2 K => Prog.ret { s' with count := s'.count + 0 }) = Prog.ret := by funext s'; rfl
  rw [this, bind_ret_right]

/-- Every call that supplies items is a batch. -/
theorem execCall_batch (hsz : s.sketchSize = lens s.levels) (hc : lens s.levels < caps sec s.levels) :
    (∀ o : InsOp K, s.execCall sec (.ins o) = insertBatch sec o.fast o.method o.items s >>= fun s' =>
      .ret { s' with count := s'.count + o.items.length }) ∧
    (∀ x f m, s.execCall sec (.insert x f m) = insertBatch sec f m [x] s >>= fun s' => .ret { s' with count := s'.count + 0 }) ∧
    (∀ xs f m, s.execCall sec (.insertBatch xs f m) = insertBatch sec f m xs s >>= fun s' =>
      .ret { s' with count := s'.count + 0 }) := by
  refine ⟨fun o => ?_, fun x f m => ?_, fun xs f m => ?_⟩
  · change s.execOp sec o = _
    rw [execOp_eq hsz hc]; rfl
  · change RCSketch2.insert sec f m x s = _
    rw [insert_eq_batch hsz hc]; exact insertBatch_ret _ _
  · exact insertBatch_ret _ _

theorem compress_st (hs : SecOK sec) (hi : Hist2 sec ok I) (hok : ok fast m) (h : St sec k I l n s) :
    Partially (compress sec fast m s) (St sec k I l n) := by
  unfold compress
  rw [partially_bind]
  refine ((hi.comp l s.levels s.sketchSize fast m hok h.inv).and ((compressFrom_levels hs s.levels s.sketchSize none l.length
    (by simpa using h.core.lvl) (by simpa using h.core.flow)).and (compressFrom_size _ _ _))).mono ?_
  rintro r ⟨h0, ⟨h1, h2, h3, h4, h5, h6⟩, h7⟩
  rw [ext_none] at h3 h4 h6 h7
  have hsz := h.core.size
  have hlt := h.lt
  have hne := h5 h.core.ne
  have hsz' : r.1 = lens r.2 := by omega
  exact ⟨⟨h1, h2, hsz', hne⟩, by simp only; omega, ⟨hsz', hne, h.book.hk, h.book.hn⟩, h0⟩

theorem execCall_st (hs : SecOK sec) (hi : Hist2 sec ok I) (c : Call2 K)
    (hgrow : c = .grow → ∀ l ls, I l ls → I l (ls ++ [newLevel []])) (hok : okCall ok c) (h : St sec k I l n s) :
    Partially (s.execCall sec c) (St sec k I (l ++ c.items) (n + c.counted)) := by
  obtain ⟨e1, e2, e3⟩ := execCall_batch (sec := sec) h.core.size h.lt
  cases c with
  | ins o => rw [e1]; exact batch_st hs hi hok h _ _
  | insert x f m => rw [e2]; exact batch_st hs hi hok h _ _
  | insertBatch xs f m => rw [e3]; exact batch_st hs hi hok h _ _
  | compress f m =>
    simp only [Call2.items, Call2.counted, List.append_nil, Nat.add_zero]
    exact compress_st hs hi hok h
  | grow =>
    simp only [Call2.items, Call2.counted, List.append_nil, Nat.add_zero]
    have h1 := h.core.size
    have h2 := h.lt
    have h3 := caps_grow (sec := sec) s.levels
    exact ⟨⟨lvl_grow h.core.lvl, flow_grow h.core.flow, by simp only [grow, lens_grow]; exact h1, by simp [grow]⟩,
      by simp only [grow, lens_grow]; omega, ⟨by simp only [grow, lens_grow]; exact h1, by simp [grow], h.book.hk, h.book.hn⟩,
      hgrow rfl _ _ h.inv⟩
  | updateSections i =>
    simp only [Call2.items, Call2.counted, List.append_nil, Nat.add_zero]
    change Partially (s.updateSectionsAt i) _
    by_cases hi' : i < s.levels.length
    · rw [(updateSectionsAt_noop h.core.lvl i).1 hi']; exact h
    · rw [(updateSectionsAt_noop h.core.lvl i).2 (by omega)]; trivial

theorem execCalls_st (hs : SecOK sec) (hi : Hist2 sec ok I) (hgrow : ∀ l ls, I l ls → I l (ls ++ [newLevel []])) (cs : List (Call2 K)) :
    ∀ (l : List (Fl K)) (n : Nat) (s : RCSketch2 K), (∀ c ∈ cs, okCall ok c) → St sec k I l n s →
    Partially (s.execCalls sec cs) (St sec k I (l ++ Call2.allItems cs) (n + (cs.map Call2.counted).sum)) := by
  induction cs with
  | nil => intro l n s _ h; simpa [execCalls, Call2.allItems] using h
  | cons c cs ih =>
    intro l n s hok h
    rw [execCalls, partially_bind]
    refine (execCall_st hs hi c (fun _ => hgrow) (hok c (by simp)) h).mono ?_
    intro s' h'
    have := ih _ _ s' (fun c hc => hok c (by simp [hc])) h'
    simpa [Call2.allItems, Nat.add_assoc] using this

theorem st_new (hs : SecOK sec) (k : Nat) (h0 : I [] [newLevel []]) : St sec k I [] 0 (new k) :=
  ⟨core_new k, caps_new hs k, ⟨by simp [new, lens, newLevel], by simp [new], rfl, rfl⟩, h0⟩

/-- History rule for public calls. -/
theorem calls_partially (hs : SecOK sec) (hi : Hist2 sec ok I) (hgrow : ∀ l ls, I l ls → I l (ls ++ [newLevel []])) (k : Nat)
    (cs : List (Call2 K)) (hok : ∀ c ∈ cs, okCall ok c) (h0 : I [] [newLevel []]) :
    Partially (runCalls sec k cs) (St sec k I (Call2.allItems cs) (cs.map Call2.counted).sum) := by
  have := execCalls_st hs hi hgrow cs [] 0 (new k) hok (st_new hs k h0)
  simpa [runCalls] using this

/-! ### No panics -/

theorem compress_length (ls : List (Level2 K)) (size : Nat) :
    Partially (compressFrom sec fast m size none ls) (fun r => ls.length ≤ r.2.length) :=
  (compress_rule (P := fun _ _ ls _ ls' => ls.length ≤ ls'.length) (by simp) (by simp)
    (by intro a b l ls c ls' _ ih; simpa using ih) (by intro a b l ls o u l2 c ls' _ _ _ ih; simpa using ih) ls size none)

theorem pushLv_length (ls : List (Level2 K)) (xs : List (Fl K)) : (pushLv ls xs).length = ls.length := by cases ls <;> rfl

theorem length_hist (n : Nat) : Hist2 (K := K) sec (fun _ _ => True) (fun _ ls => n ≤ ls.length) where
  push l ls xs h := by rw [pushLv_length]; exact h
  comp l ls size fast m _ h := (compress_length ls size).mono (fun r hr => h.trans hr)

theorem batch_always (hs : SecOK sec) {G : Fl K → Prop} (hG : GoodFor G m) (hc : Core sec n s) (hlt : lens s.levels < caps sec s.levels)
    (xs : List (Fl K)) (c : Nat) (hN : n + xs.length < 2 ^ 32) (hx : ∀ y ∈ xs, G y) (hg : ∀ lv ∈ s.levels, ∀ y ∈ lv.buf, G y) :
    Always (insertBatch sec fast m xs s >>= fun s' => .ret { s' with count := s'.count + c }) (fun _ => True) := by
  rw [always_bind]
  exact (insertBatchLoop_always hs hG _ xs n s (le_refl _) hN hx hg hc hlt).mono (fun _ _ => trivial)

theorem execCall_always (hs : SecOK sec) {G : Fl K → Prop} (c : Call2 K) (hG : okCall (fun _ m => GoodFor G m) c)
    (hr : ∀ i, c = .updateSections i → i < s.levels.length) (hc : Core sec n s) (hlt : lens s.levels < caps sec s.levels)
    (hN : n + c.items.length < 2 ^ 32) (hx : ∀ y ∈ c.items, G y) (hg : ∀ lv ∈ s.levels, ∀ y ∈ lv.buf, G y) :
    Always (s.execCall sec c) (fun _ => True) := by
  obtain ⟨e1, e2, e3⟩ := execCall_batch (sec := sec) hc.size hlt
  cases c with
  | ins o => rw [e1]; exact batch_always hs hG hc hlt _ _ hN hx hg
  | insert x f m => rw [e2]; exact batch_always hs hG hc hlt _ _ hN hx hg
  | insertBatch xs f m => rw [e3]; exact batch_always hs hG hc hlt _ _ hN hx hg
  | compress f m =>
    change Always (compress sec f m s) _
    unfold compress
    rw [always_bind]
    refine (compressFrom_always hs hG s.levels s.sketchSize n none ?_).mono (fun _ _ => trivial)
    rw [ext_none]
    simp only [Call2.items, List.length_nil] at hN
    exact ⟨hg, hc.lvl, hc.flow, le_of_eq hc.size.symm, by omega⟩
  | grow => trivial
  | updateSections i =>
    change Always (s.updateSectionsAt i) _
    rw [(updateSectionsAt_noop hc.lvl i).1 (hr i rfl)]; trivial

theorem okCall_mono {ok ok' : Bool → CompactionMethod → Prop} (h : ∀ f m, ok f m → ok' f m) {c : Call2 K} (hc : okCall ok c) :
    okCall ok' c := by
  cases c with
  | ins o => exact h _ _ hc
  | insert x f m => exact h _ _ hc
  | insertBatch xs f m => exact h _ _ hc
  | compress f m => exact h _ _ hc
  | grow => trivial
  | updateSections i => trivial

/-- Items in a class `G`, at least `d` levels. -/
def GoodLen (G : Fl K → Prop) (d : Nat) (l : List (Fl K)) (ls : List (Level2 K)) : Prop :=
  ((∀ y ∈ l, G y) → ∀ lv ∈ ls, ∀ y ∈ lv.buf, G y) ∧ d ≤ ls.length

theorem goodLen_hist {G : Fl K → Prop} (d : Nat) : Hist2 (K := K) sec (fun _ m => GoodFor G m) (GoodLen G d) where
  push l ls xs h := ⟨(pres_hist (sec := sec)).push l ls xs h.1, (length_hist (sec := sec) d).push l ls xs h.2⟩
  comp l ls size f m hm h := (pres_hist.comp l ls size f m hm.2 h.1).and ((length_hist d).comp l ls size f m trivial h.2)

theorem goodLen_grow {G : Fl K → Prop} (d : Nat) (l : List (Fl K)) (ls : List (Level2 K)) (h : GoodLen G d l ls) :
    GoodLen G d l (ls ++ [newLevel []]) :=
  ⟨fun hl => good_grow (h.1 hl), by have := h.2; simp; omega⟩

theorem execCall_grows {G : Fl K → Prop} (hs : SecOK sec) (h : St sec k (GoodLen G n) l n' s) :
    Partially (s.execCall sec .grow) (fun s' => n + 1 ≤ s'.levels.length) := by
  have := h.inv.2
  change n + 1 ≤ (s.levels ++ [newLevel []]).length
  simp; omega

/-- What the calls still to come may assume and must keep. -/
theorem execCalls_always (hs : SecOK sec) {G : Fl K → Prop} (cs : List (Call2 K)) :
    ∀ (d : Nat) (l : List (Fl K)) (n : Nat) (s : RCSketch2 K), (∀ c ∈ cs, okCall (fun _ m => GoodFor G m) c) → Call2.InRange d cs →
    l.length + (Call2.allItems cs).length < 2 ^ 32 → (∀ y ∈ l, G y) → (∀ y ∈ Call2.allItems cs, G y) →
    St sec k (GoodLen G d) l n s → Always (s.execCalls sec cs) (fun _ => True) := by
  induction cs with
  | nil => intro d l n s _ _ _ _ _ _; simp [execCalls]
  | cons c cs ih =>
    intro d l n s hok hr hN hl hx h
    have hlen : (Call2.allItems (c :: cs)).length = c.items.length + (Call2.allItems cs).length := by simp [Call2.allItems]
    have hmem : ∀ y ∈ c.items, G y := fun y hy => hx y (by simp [Call2.allItems, hy])
    have hmem' : ∀ y ∈ Call2.allItems cs, G y := fun y hy => hx y (by
      simp only [Call2.allItems, List.flatMap_cons, List.mem_append] at hy ⊢; exact Or.inr hy)
    rw [execCalls, always_bind]
    have ha := execCall_always hs c (hok c (by simp)) (fun i hi => by
      subst hi; have := h.inv.2; have := hr.1; omega) h.core h.lt (by omega) hmem (h.inv.1 hl)
    have hst := execCall_st hs (goodLen_hist (G := G) d) c (fun _ => goodLen_grow d) (hok c (by simp)) h
    have hl' : ∀ y ∈ l ++ c.items, G y := by
      intro y hy; rcases List.mem_append.1 hy with hy | hy
      · exact hl y hy
      · exact hmem y hy
    have hN' : (l ++ c.items).length + (Call2.allItems cs).length < 2 ^ 32 := by rw [List.length_append]; omega
    have hok' : ∀ c ∈ cs, okCall (fun _ m => GoodFor G m) c := fun c hc => hok c (by simp [hc])
    by_cases hg : c = .grow
    · subst hg
      refine (ha.and (hst.and (execCall_grows hs h))).mono ?_
      rintro s' ⟨-, h1, h2⟩
      exact ih (d + 1) _ _ s' hok' hr hN' hl' hmem' ⟨h1.core, h1.lt, h1.book, h1.inv.1, h2⟩
    · refine (ha.and hst).mono ?_
      rintro s' ⟨-, h1⟩
      refine ih d _ _ s' hok' ?_ hN' hl' hmem' h1
      cases c with
      | grow => exact absurd rfl hg
      | updateSections i => exact hr.2
      | _ => exact hr

/-- No list of public calls panics. -/
theorem calls_always (hs : SecOK sec) {G : Fl K → Prop} (k : Nat) (cs : List (Call2 K)) (hG : ∀ c ∈ cs, okCall (fun _ m => GoodFor G m) c)
    (hr : Call2.InRange 1 cs) (hN : (Call2.allItems cs).length < 2 ^ 32) (hx : ∀ y ∈ Call2.allItems cs, G y) :
    Always (runCalls sec k cs) (fun _ => True) :=
  execCalls_always hs cs 1 [] 0 (new k) hG hr (by simpa using hN) (by simp) hx
    (st_new hs k ⟨by simp [newLevel], by simp⟩)

/-! ### Supermartingales -/

variable {G : Fl K → Prop} {Φ : List (Fl K) → List (Level2 K) → ℚ}

theorem batch_exp (hs : SecOK sec) (h2 : Super2 sec G ok Φ) (hok : ok fast m) (hc : Core sec n s)
    (hlt : lens s.levels < caps sec s.levels) (l xs : List (Fl K)) (c : Nat) (hN : n + xs.length < 2 ^ 32) (hx : ∀ y ∈ xs, G y)
    (hg : ∀ lv ∈ s.levels, ∀ y ∈ lv.buf, G y) :
    exp (insertBatch sec fast m xs s >>= fun s' => .ret { s' with count := s'.count + c }) (fun s' => Φ (l ++ xs) s'.levels) ≤
      Φ l s.levels := by
  rw [exp_bind]
  simp only [exp_ret]
  exact insertBatchLoop_exp hs h2 hok _ xs l n s (le_refl _) hN hx hg hc hlt

theorem execCall_exp (hs : SecOK sec) (h2 : Super2 sec G ok Φ) (hgrow : ∀ l ls, Φ l (ls ++ [newLevel []]) ≤ Φ l ls)
    (c : Call2 K) (hok : okCall ok c) (hr : ∀ i, c = .updateSections i → i < s.levels.length) (hc : Core sec n s)
    (hlt : lens s.levels < caps sec s.levels)
    (hN : n + c.items.length < 2 ^ 32) (hx : ∀ y ∈ c.items, G y) (hg : ∀ lv ∈ s.levels, ∀ y ∈ lv.buf, G y) (l : List (Fl K)) :
    exp (s.execCall sec c) (fun s' => Φ (l ++ c.items) s'.levels) ≤ Φ l s.levels := by
  obtain ⟨e1, e2, e3⟩ := execCall_batch (sec := sec) hc.size hlt
  cases c with
  | ins o => rw [e1]; exact batch_exp hs h2 hok hc hlt _ _ _ hN hx hg
  | insert x f m => rw [e2]; exact batch_exp hs h2 hok hc hlt _ _ _ hN hx hg
  | insertBatch xs f m => rw [e3]; exact batch_exp hs h2 hok hc hlt _ _ _ hN hx hg
  | compress f m =>
    simp only [Call2.items, List.length_nil, List.append_nil] at hN ⊢
    change exp (compress sec f m s) _ ≤ _
    unfold compress
    rw [exp_bind]
    simp only [exp_ret]
    exact h2.comp l s.levels s.sketchSize n f m hok ⟨hg, hc.lvl, hc.flow, le_of_eq hc.size.symm, by omega⟩
  | grow =>
    simp only [Call2.items, List.append_nil]
    change exp (.ret s.grow) _ ≤ _
    rw [exp_ret]; exact hgrow l s.levels
  | updateSections i =>
    simp only [Call2.items, List.append_nil]
    change exp (s.updateSectionsAt i) _ ≤ _
    rw [(updateSectionsAt_noop hc.lvl i).1 (hr i rfl), exp_ret]

theorem execCalls_exp (hs : SecOK sec) (h2 : Super2 sec G ok Φ) (hgrow : ∀ l ls, Φ l (ls ++ [newLevel []]) ≤ Φ l ls)
    (cs : List (Call2 K)) :
    ∀ (d : Nat) (l : List (Fl K)) (n : Nat) (s : RCSketch2 K), (∀ c ∈ cs, okCall ok c) → Call2.InRange d cs →
    l.length + (Call2.allItems cs).length < 2 ^ 32 → (∀ y ∈ l, G y) → (∀ y ∈ Call2.allItems cs, G y) →
    St sec k (GoodLen G d) l n s → exp (s.execCalls sec cs) (fun s' => Φ (l ++ Call2.allItems cs) s'.levels) ≤ Φ l s.levels := by
  induction cs with
  | nil => intro d l n s _ _ _ _ _ _; simp [execCalls, Call2.allItems]
  | cons c cs ih =>
    intro d l n s hok hr hN hl hx h
    have hlen : (Call2.allItems (c :: cs)).length = c.items.length + (Call2.allItems cs).length := by simp [Call2.allItems]
    have hmem : ∀ y ∈ c.items, G y := fun y hy => hx y (by simp [Call2.allItems, hy])
    have hmem' : ∀ y ∈ Call2.allItems cs, G y := fun y hy => hx y (by
      simp only [Call2.allItems, List.flatMap_cons, List.mem_append] at hy ⊢; exact Or.inr hy)
    have hG : okCall (fun _ m => GoodFor G m) c := okCall_mono h2.good (hok c (by simp))
    rw [execCalls, exp_bind]
    have hi : ∀ i, c = .updateSections i → i < s.levels.length := fun i hi => by
      subst hi; have := h.inv.2; have := hr.1; omega
    have hst := execCall_st hs (goodLen_hist (G := G) d) c (fun _ => goodLen_grow d) hG h
    have hl' : ∀ y ∈ l ++ c.items, G y := by
      intro y hy; rcases List.mem_append.1 hy with hy | hy
      · exact hl y hy
      · exact hmem y hy
    have hN' : (l ++ c.items).length + (Call2.allItems cs).length < 2 ^ 32 := by rw [List.length_append]; omega
    have hok' : ∀ c ∈ cs, okCall ok c := fun c hc => hok c (by simp [hc])
    refine le_trans (exp_mono (g' := fun s' => Φ (l ++ c.items) s'.levels) ?_)
      (execCall_exp hs h2 hgrow c (hok c (by simp)) hi h.core h.lt (by omega) hmem (h.inv.1 hl) l)
    have e : l ++ Call2.allItems (c :: cs) = (l ++ c.items) ++ Call2.allItems cs := by simp [Call2.allItems]
    rw [e]
    by_cases hg : c = .grow
    · subst hg
      refine (hst.and (execCall_grows hs h)).mono ?_
      rintro s' ⟨h1, h2⟩
      exact ih (d + 1) _ _ s' hok' hr hN' hl' hmem' ⟨h1.core, h1.lt, h1.book, h1.inv.1, h2⟩
    · refine hst.mono ?_
      intro s' h1
      refine ih d _ _ s' hok' ?_ hN' hl' hmem' h1
      cases c with
      | grow => exact absurd rfl hg
      | updateSections i => exact hr.2
      | _ => exact hr

theorem calls_exp (hs : SecOK sec) (h2 : Super2 sec G ok Φ) (hgrow : ∀ l ls, Φ l (ls ++ [newLevel []]) ≤ Φ l ls) (k : Nat)
    (cs : List (Call2 K)) (hok : ∀ c ∈ cs, okCall ok c) (hr : Call2.InRange 1 cs) (hN : (Call2.allItems cs).length < 2 ^ 32)
    (hx : ∀ y ∈ Call2.allItems cs, G y) :
    exp (runCalls sec k cs) (fun s => Φ (Call2.allItems cs) s.levels) ≤ Φ [] [newLevel []] := by
  have := execCalls_exp (k := k) hs h2 hgrow cs 1 [] 0 (new k) hok hr (by simpa using hN) (by simp) hx
    (st_new hs k ⟨by simp [newLevel], by simp⟩)
  simpa [runCalls, new] using this

/-! ### Number of levels -/

/-- Geometric decay of what enters the levels, without a condition on which levels exist. -/
def Decay (p q : Nat) : Nat → List (Level2 K) → Prop
  | _, [] => True
  | N, l :: ls => ∃ r N', l.buf.length + r ≤ N ∧ q * N' ≤ p * r ∧ Decay p q N' ls

variable {p q c : Nat}

theorem decay_ext {N u : Nat} {out : List (Fl K)} {ls : List (Level2 K)} (h : Decay p q N ls) (hu : out.length ≤ u) :
    Decay p q (N + u) (ext (some out) ls) := by
  cases ls with
  | nil => exact ⟨0, 0, by simp [newLevel]; omega, by omega, trivial⟩
  | cons l ls =>
    obtain ⟨r, N', h1, h2, h4⟩ := h
    rw [ext_cons]
    exact ⟨r, N', by simp [extend]; omega, h2, h4⟩

theorem decay_grow : ∀ {N : Nat} {ls : List (Level2 K)}, Decay p q N ls → Decay p q N (ls ++ [newLevel []]) := by
  intro N ls
  induction ls generalizing N with
  | nil => intro _; exact ⟨0, 0, by simp [newLevel], by simp, trivial⟩
  | cons a ls ih =>
    rintro ⟨r, N', h1, h2, h3⟩
    exact ⟨r, N', h1, h2, ih h3⟩

theorem ext_length (out : List (Fl K)) (ls : List (Level2 K)) (h : ls ≠ []) : (ext (some out) ls).length = ls.length := by
  cases ls with
  | nil => exact absurd rfl h
  | cons a ls => rfl

theorem decay_step {N N' e : Nat} (h : q * N' ≤ p * N) (hc : c * q ^ e ≤ N' * p ^ e) : c * q ^ (e + 1) ≤ N * p ^ (e + 1) := by
  calc c * q ^ (e + 1) = q * (c * q ^ e) := by rw [pow_succ]; ring
    _ ≤ q * (N' * p ^ e) := Nat.mul_le_mul_left _ hc
    _ = (q * N') * p ^ e := by ring
    _ ≤ (p * N) * p ^ e := Nat.mul_le_mul_right _ h
    _ = N * p ^ (e + 1) := by rw [pow_succ]; ring

/-- `compress` keeps the decay, and adds a level only when enough items arrived at the last one. -/
theorem compressFrom_decay (hs : SecOK sec) (h2 : ∀ j, j ≤ 4 → ∀ u, sec j ≤ u → q * ((u + 1) / 2) ≤ p * u) (hc : c ≤ 6 * sec 0)
    (ls : List (Level2 K)) (size N : Nat) (hl : ∀ l ∈ ls, LvlOK l) (hg : Decay p q N ls) :
    Partially (compressFrom sec fast m size none ls) (fun r => Decay p q N r.2 ∧
      (r.2.length ≤ ls.length ∨ r.2.length = ls.length + 1 ∧ c * q ^ (ls.length - 1) ≤ N * p ^ (ls.length - 1))) := by
  refine (compress_rule (P := fun size carry ls size' ls' => ∀ N, (∀ l ∈ ext carry ls, LvlOK l) → Decay p q N (ext carry ls) →
    Decay p q N ls' ∧ (ls = [] → ls'.length ≤ (ext carry ls).length) ∧ (ls'.length ≤ (ext carry ls).length ∨
      ls'.length = (ext carry ls).length + 1 ∧ c * q ^ ((ext carry ls).length - 1) ≤ N * p ^ ((ext carry ls).length - 1)))
    ?_ ?_ ?_ ?_ ls size none).mono ?_
  · intro size N _ h; exact ⟨h, by simp [ext], Or.inl (by simp [ext])⟩
  · intro size out N _ h; exact ⟨h, by simp [ext], Or.inl (by simp [ext])⟩
  · intro size carry l ls size' ls' hfull ih N hl hg
    rw [ext_cons] at hg hl ⊢
    rw [ext_none] at ih
    obtain ⟨r, N', f1, f2, f4⟩ := hg
    obtain ⟨g1, g2, g3⟩ := ih N' (fun l hl' => hl l (by simp [hl'])) f4
    refine ⟨⟨r, N', f1, f2, g1⟩, by simp, ?_⟩
    rcases g3 with g3 | ⟨g3, g4⟩
    · left; simpa using g3
    · right
      refine ⟨by simp [g3], ?_⟩
      have hne : ls ≠ [] := fun h => by have := g2 h; omega
      have : 1 ≤ ls.length := List.length_pos_iff.2 hne
      have e : (extend l carry :: ls).length - 1 = (ls.length - 1) + 1 := by simp only [List.length_cons]; omega
      rw [e]
      exact decay_step (f2.trans (Nat.mul_le_mul_left _ (by omega))) g4
  · intro size carry l ls out u l2 size' ls' hfull hr hu ih N hl hg
    rw [ext_cons] at hg hl ⊢
    have hl0 := hl (extend l carry) (by simp)
    obtain ⟨r, N', f1, f2, f4⟩ := hg
    obtain ⟨g1, g2, -, g4, -⟩ := hr.removed hs hl0 hfull
    have hsu := hr.removed_sec hl0 hfull
    have h2' := h2 _ hl0.div u hsu
    have hcg := cap_ge hs hl0
    obtain ⟨k1, k2, k3⟩ := ih (N' + out.length) (lvlOK_ext (fun l hl' => hl l (by simp [hl']))) (decay_ext f4 (le_refl _))
    have hdec : q * (N' + out.length) ≤ p * (r + u) := by
      have : q * out.length ≤ q * ((u + 1) / 2) := Nat.mul_le_mul_left _ (by omega)
      rw [Nat.mul_add, Nat.mul_add]; omega
    refine ⟨⟨r + u, N' + out.length, by omega, hdec, k1⟩, by simp, ?_⟩
    by_cases hne : ls = []
    · subst hne
      have := k2 rfl
      simp only [ext, List.length_singleton] at this
      by_cases h0 : ls'.length = 0
      · left; simp [h0]
      · right
        refine ⟨by simp only [List.length_cons, List.length_nil]; omega, ?_⟩
        simp only [List.length_singleton, Nat.sub_self, pow_zero, Nat.mul_one]
        omega
    · rw [ext_length _ _ hne] at k3
      rcases k3 with k3 | ⟨k3, k4⟩
      · left; simpa using k3
      · right
        refine ⟨by simp [k3], ?_⟩
        have : 1 ≤ ls.length := List.length_pos_iff.2 hne
        have e : (extend l carry :: ls).length - 1 = (ls.length - 1) + 1 := by simp only [List.length_cons]; omega
        rw [e]
        exact decay_step (hdec.trans (Nat.mul_le_mul_left _ (by omega))) k4
  · intro r h
    obtain ⟨h1, -, h3⟩ := h N (by simpa using hl) (by simpa using hg)
    rw [ext_none] at h3
    exact ⟨h1, h3⟩

/-- At most `B + g` levels while at most `N` items have been supplied. -/
def LevelBound (p q N B : Nat) (l : List (Fl K)) (ls : List (Level2 K)) : Prop :=
  (∀ lv ∈ ls, LvlOK lv) ∧ Decay p q l.length ls ∧ (l.length ≤ N → ls.length ≤ B)

theorem levelBound_hist (hs : SecOK sec) (h2 : ∀ j, j ≤ 4 → ∀ u, sec j ≤ u → q * ((u + 1) / 2) ≤ p * u) (hc : c ≤ 6 * sec 0)
    (hpq : p ≤ q) (hq : 0 < q) {M N : Nat} (hM : N * p ^ M < c * q ^ M) (g : Nat) :
    Hist2 (K := K) sec (fun _ _ => True) (LevelBound p q N (M + 1 + g)) where
  push l ls xs h := by
    refine ⟨push_lvl h.1 xs, ?_, ?_⟩
    · have h' := h.2.1
      cases ls with
      | nil => trivial
      | cons a ls =>
        obtain ⟨r, N', f1, f2, f4⟩ := h'
        exact ⟨r, N', by simp only [List.length_append]; omega, f2, f4⟩
    · rw [pushLv_length, List.length_append]
      intro hN; exact h.2.2 (by omega)
  comp l ls size f m _ h := by
    refine ((compressFrom_lvl hs ls size h.1).and (compressFrom_decay hs h2 hc ls size _ h.1 h.2.1)).mono ?_
    rintro r ⟨h1, h3, h4⟩
    refine ⟨h1, h3, fun hN => ?_⟩
    have := h.2.2 hN
    rcases h4 with h4 | ⟨h4, h5⟩
    · omega
    · by_contra hcon
      have hMl : M ≤ ls.length - 1 := by omega
      obtain ⟨j, hj⟩ : ∃ j, ls.length - 1 = M + j := ⟨ls.length - 1 - M, by omega⟩
      rw [hj, pow_add, pow_add, ← Nat.mul_assoc, ← Nat.mul_assoc] at h5
      have h6 : l.length * p ^ M * p ^ j ≤ N * p ^ M * q ^ j :=
        Nat.mul_le_mul (Nat.mul_le_mul_right _ hN) (Nat.pow_le_pow_left hpq j)
      have h7 : N * p ^ M * q ^ j < c * q ^ M * q ^ j := Nat.mul_lt_mul_of_pos_right hM (by positivity)
      omega

theorem execCalls_levels (hs : SecOK sec) (h2 : ∀ j, j ≤ 4 → ∀ u, sec j ≤ u → q * ((u + 1) / 2) ≤ p * u) (hc : c ≤ 6 * sec 0)
    (hpq : p ≤ q) (hq : 0 < q) {M N : Nat} (hM : N * p ^ M < c * q ^ M) (cs : List (Call2 K)) :
    ∀ (g : Nat) (l : List (Fl K)) (n : Nat) (s : RCSketch2 K), St sec k (LevelBound p q N (M + 1 + g)) l n s →
    Partially (s.execCalls sec cs) (fun s' => (l ++ Call2.allItems cs).length ≤ N → s'.levels.length ≤ M + 1 + g + Call2.grows cs) := by
  induction cs with
  | nil => intro g l n s h; simpa [execCalls, Call2.allItems, Call2.grows] using h.inv.2.2
  | cons a cs ih =>
    intro g l n s h
    have e : l ++ Call2.allItems (a :: cs) = (l ++ a.items) ++ Call2.allItems cs := by simp [Call2.allItems]
    rw [execCalls, partially_bind, e]
    by_cases hg : a = .grow
    · subst hg
      have := ih (g + 1) (l ++ Call2.items .grow) n s.grow (by
        have h1 := h.core.size
        have h2 := h.lt
        have h3 := caps_grow (sec := sec) s.levels
        simp only [Call2.items, List.append_nil]
        refine ⟨⟨lvl_grow h.core.lvl, flow_grow h.core.flow, by simp only [grow, lens_grow]; exact h1, by simp [grow]⟩,
          by simp only [grow, lens_grow]; omega, ⟨by simp only [grow, lens_grow]; exact h1, by simp [grow], h.book.hk, h.book.hn⟩,
          lvl_grow h.inv.1, decay_grow h.inv.2.1, ?_⟩
        intro hN; have := h.inv.2.2 hN; simp only [grow, List.length_append, List.length_singleton]; omega)
      change Partially (execCalls sec s.grow cs) _
      refine Partially.mono this ?_
      intro s' h hN
      have := h hN
      simp only [Call2.grows]; omega
    · refine (execCall_st hs (levelBound_hist hs h2 hc hpq hq hM g) a (fun h => absurd h hg)
        (okCall_mono (ok := fun _ _ => True) (fun _ _ h => h) (by cases a <;> trivial)) h).mono ?_
      intro s' h'
      refine (ih g _ _ s' h').mono ?_
      intro s'' h hN
      have := h hN
      have e : Call2.grows (a :: cs) = Call2.grows cs := by
        cases a with
        | grow => exact absurd rfl hg
        | _ => rfl
      rw [e]; exact this

/-- At most `M + 1` levels plus one for every `grow` call. -/
theorem calls_levels (hs : SecOK sec) (h2 : ∀ j, j ≤ 4 → ∀ u, sec j ≤ u → q * ((u + 1) / 2) ≤ p * u) (hc : c ≤ 6 * sec 0)
    (hpq : p ≤ q) (hq : 0 < q) {M : Nat} (cs : List (Call2 K)) (hM : (Call2.allItems cs).length * p ^ M < c * q ^ M) (k : Nat) :
    Partially (runCalls sec k cs) (fun s => s.levels.length ≤ M + 1 + Call2.grows cs) := by
  refine (execCalls_levels (k := k) hs h2 hc hpq hq hM cs 0 [] 0 (new k) (st_new hs k ⟨by simp [lvlOK_new],
    ⟨0, 0, by simp [newLevel], by simp, trivial⟩, by simp⟩)).mono ?_
  intro s h
  simpa using h (by simp)

end RCSketch2
end AQ

/-
Property C175, continued: `BufferedDigest`s around sketches and around wrappers of sketches.
-/
import Verif.Props.Steady

set_option linter.unusedSectionVars false
set_option linter.unusedVariables false

namespace AQ
open Prog Spec
variable {K : Type} [Field K] [LinearOrder K] [IsStrictOrderedRing K] [FloatFmt K]

/-- `I` holds after every `add_buffer`, queries keep it, and where it holds `add_buffer(&[])` does nothing. -/
structure Quiet {D : Type} [Digest D (Fl K)] (I : D → Prop) : Prop where
  after : ∀ (d : D) (xs : List (Fl K)), Partially (Digest.addBuffer d xs) I
  kept : ∀ (d : D) (Q : Query K), I d → Partially (Q.askAny d) (fun r => I r.2)
  idle : ∀ d : D, I d → Digest.addBuffer d ([] : List (Fl K)) = .ret d

section
variable {D : Type} [Digest D (Fl K)] {P I : D → Prop}

theorem buffered_ask (b : BufferedDigest D (Fl K)) (Q : Query K) : Q.askAny b =
    (b.flush >>= fun b' => Q.askAny b'.digest >>= fun r => .ret (r.1, { b' with digest := r.2 })) := by
  cases Q <;> rfl

theorem flush_quiet (hq : Quiet I) {b : BufferedDigest D (Fl K)} (hb : b.buffer = []) (hi : I b.digest) : b.flush = .ret b := by
  unfold BufferedDigest.flush
  rw [hb, hq.idle _ hi]
  show Prog.ret _ = _
  cases b
  simp only at hb
  subst hb
  rfl

/-- C175. A `BufferedDigest` around a digest to which `add_buffer(&[])` does nothing. -/
theorem C175_buffered (h : AtRest P) (hq : Quiet I) :
    AtRest (fun b : BufferedDigest D (Fl K) => b.buffer = [] ∧ P b.digest ∧ I b.digest) where
  settle b Q := by
    rw [buffered_ask, partially_bind]
    unfold BufferedDigest.flush
    rw [partially_bind]
    refine (hq.after b.digest b.buffer).mono ?_
    intro d hd
    show Partially (Q.askAny d >>= _) _
    rw [partially_bind]
    refine Partially.mono ((h.settle d Q).and (hq.kept d Q hd)) ?_
    rintro r ⟨⟨h1, h2⟩, h3⟩
    refine ⟨⟨rfl, h1, h3⟩, ?_⟩
    rw [buffered_ask, flush_quiet hq rfl h3, bind_ret, always_bind]
    refine h2.mono ?_
    rintro r' rfl
    rfl
  keep b Q hb := by
    rw [buffered_ask, flush_quiet hq hb.1 hb.2.2, bind_ret, partially_bind]
    refine (h.keep b.digest Q hb.2.1).mono ?_
    intro r hr
    show ({ b with digest := r.2 } : BufferedDigest D (Fl K)) = b
    rw [hr]

theorem forEach_after {f : D → Prog D} (h : ∀ d, Partially (f d) I) : ∀ ds : List D, Partially (forEach f ds) (fun ds' => ∀ d ∈ ds', I d)
  | [] => by intro d hd; simp at hd
  | d :: ds => by
    unfold forEach
    rw [partially_bind]
    refine (h d).mono ?_
    intro d' hd'
    rw [partially_bind]
    refine (forEach_after h ds).mono ?_
    intro ds' hds e he
    rcases List.mem_cons.1 he with rfl | he
    · exact hd'
    · exact hds e he

theorem forEach_idle {f : D → Prog D} : ∀ ds : List D, (∀ d ∈ ds, f d = .ret d) → forEach f ds = .ret ds
  | [], _ => rfl
  | d :: ds, h => by
    unfold forEach
    rw [h d (by simp), bind_ret, forEach_idle ds (fun e he => h e (by simp [he])), bind_ret]
    rfl

theorem sumLoop_kept {f : D → Prog (Fl K × D)} (h : ∀ d, I d → Partially (f d) (fun r => I r.2)) :
    ∀ (ds : List D) (acc : Fl K), (∀ d ∈ ds, I d) → Partially (MultiDigest.sumLoop f ds acc) (fun s => ∀ d ∈ s.2, I d)
  | [], acc, _ => by intro d hd; simp at hd
  | d :: ds, acc, hd => by
    unfold MultiDigest.sumLoop
    rw [partially_bind]
    refine (h d (hd d (by simp))).mono ?_
    intro r hr
    rw [partially_bind]
    refine (sumLoop_kept h ds (acc + r.1) (fun e he => hd e (by simp [he]))).mono ?_
    intro s hs e he
    rcases List.mem_cons.1 he with rfl | he
    · exact hr
    · exact hs e he

theorem quiet_multi (hq : Quiet I) : Quiet (fun m : MultiDigest D => ∀ d ∈ m.digests, I d) where
  after m xs := by
    show Partially (MultiDigest.addBuffer m xs) _
    unfold MultiDigest.addBuffer
    rw [partially_bind]
    exact (forEach_after (fun d => hq.after d xs) m.digests).mono (fun ds h => h)
  kept m Q hm := by
    rw [multi_ask, partially_bind]
    exact (sumLoop_kept (fun d hd => hq.kept d Q hd) m.digests (Fl.lit 0) hm).mono (fun s h => h)
  idle m hm := by
    show MultiDigest.addBuffer m [] = _
    unfold MultiDigest.addBuffer
    rw [forEach_idle _ (fun d hd => hq.idle d (hm d hd))]
    rfl

theorem quiet_sym (hq : Quiet I) : Quiet (fun s : SymDigest D => I s.low ∧ I s.high) where
  after s xs := by
    show Partially (SymDigest.addBuffer s xs) _
    unfold SymDigest.addBuffer
    rw [partially_bind]
    refine (hq.after s.low xs).mono ?_
    intro l hl
    rw [partially_bind]
    exact (hq.after s.high _).mono (fun g hg => ⟨hl, hg⟩)
  kept s Q hs := by
    rw [sym_ask, partially_bind]
    refine (hq.kept s.low Q hs.1).mono ?_
    intro l hl
    rw [partially_bind]
    refine (hq.kept s.high Q.mirror hs.2).mono ?_
    intro g hg
    rw [partially_bind]
    exact (partially_true _).mono (fun _ _ => ⟨hl, hg⟩)
  idle s hs := by
    show SymDigest.addBuffer s [] = _
    unfold SymDigest.addBuffer
    rw [hq.idle _ hs.1, List.map_nil, bind_ret, hq.idle _ hs.2]
    rfl
end

/-! ### Sketches -/

theorem quiet_rcsketch2 {sec : Nat → Nat} : Quiet (K := K) (fun _ : RC2 sec K => True) where
  after s xs := partially_true _
  kept s Q _ := partially_true _
  idle s _ := rfl

namespace RCSketch

theorem compactAt_bufferSize (s : RCSketch K) (h : Nat) (fast : Bool) (m : CompactionMethod) :
    Partially (s.compactAt h fast m) (fun r => r.2.bufferSize = s.bufferSize) := by
  have hc : ∀ (s : RCSketch K) (ci : Nat), Partially (s.compact h ci m) (fun r => r.2.bufferSize = s.bufferSize) := by
    intro s ci
    unfold compact
    rw [partially_bind]
    refine (partially_true _).mono ?_
    intro buf _
    rw [partially_bind]
    refine (partially_true _).mono ?_
    intro srt _
    split
    · rw [partially_bind]
      exact (partially_true _).mono (fun _ _ => rfl)
    · trivial
  have hi : Partially (if fast then .ret (s.getCompactIndexFast, s) else s.getCompactIndex h) (fun r => r.2.bufferSize = s.bufferSize) := by
    split
    · rfl
    · unfold getCompactIndex
      rw [partially_bind]
      refine (partially_true _).mono ?_
      intro buf _
      rw [partially_bind]
      refine (partially_true _).mono ?_
      intro c _
      rw [partially_bind]
      refine (partially_true _).mono ?_
      intro ci _
      split
      · rfl
      · trivial
  unfold compactAt
  rw [partially_bind]
  refine hi.mono ?_
  intro r e
  refine (hc r.2 r.1).mono ?_
  intro r' e'
  rw [e', e]

theorem cascade_bufferSize (fast : Bool) (m : CompactionMethod) : ∀ f : Nat,
    (∀ (items : List (Fl K)) (h : Nat) (s : RCSketch K), Partially (batch fast m f items h s) (fun s' => s'.bufferSize = s.bufferSize)) ∧
    (∀ (items : List (Fl K)) (h : Nat) (s : RCSketch K), Partially (fill fast m f items h s) (fun s' => s'.bufferSize = s.bufferSize)) ∧
    (∀ (h : Nat) (s : RCSketch K), Partially (drain fast m f h s) (fun s' => s'.bufferSize = s.bufferSize))
  | 0 => ⟨fun _ _ _ => by unfold batch; trivial, fun _ _ _ => by unfold fill; trivial, fun _ _ => by unfold drain; trivial⟩
  | f + 1 => by
    obtain ⟨h1, h2, h3⟩ := cascade_bufferSize fast m f
    refine ⟨?_, ?_, ?_⟩
    · intro items h s
      unfold batch
      refine (h2 items h (s.ensureLevel h)).mono ?_
      intro s' e
      rw [e]
      unfold ensureLevel
      split <;> rfl
    · intro items h s
      unfold fill
      split
      · rfl
      · rw [partially_bind]
        refine (partially_true _).mono ?_
        intro buf _
        rw [partially_bind]
        refine (partially_true _).mono ?_
        intro room _
        rw [partially_bind]
        refine (h3 h _).mono ?_
        intro s1 e1
        refine (h2 _ h s1).mono ?_
        intro s2 e2
        rw [e2, e1]
        rfl
    · intro h s
      unfold drain
      rw [partially_bind]
      refine (partially_true _).mono ?_
      intro buf _
      split
      · rw [partially_bind]
        refine (compactAt_bufferSize s h fast m).mono ?_
        intro r e
        rw [partially_bind]
        refine (h1 r.1 (h + 1) r.2).mono ?_
        intro s1 e1
        refine (h3 h s1).mono ?_
        intro s2 e2
        rw [e2, e1, e]
      · rfl

theorem batches_bufferSize (fast : Bool) (m : CompactionMethod) : ∀ (cs : List (List (Fl K))) (s : RCSketch K),
    Partially (batches fast m cs s) (fun s' => s'.bufferSize = s.bufferSize)
  | [], s => rfl
  | c :: cs, s => by
    unfold batches
    rw [partially_bind]
    refine ((cascade_bufferSize fast m _).1 c 0 s).mono ?_
    intro s1 e1
    refine (batches_bufferSize fast m cs s1).mono ?_
    intro s2 e2
    rw [e2, e1]

end RCSketch

theorem quiet_rcsketch : Quiet (K := K) (fun s : RCSketch K => s.bufferSize / 2 ≠ 0) where
  after s xs := by
    show Partially (RCSketch.addBuffer s xs) _
    unfold RCSketch.addBuffer chunks
    split
    · trivial
    · rename_i h
      rw [bind_ret, partially_bind]
      refine (RCSketch.batches_bufferSize false .default _ s).mono ?_
      intro s' e
      show s'.bufferSize / 2 ≠ 0
      rw [e]
      exact h
  kept s Q hs := by
    have := C175_rcsketch.keep s Q trivial
    refine this.mono ?_
    intro r hr
    rw [hr]
    exact hs
  idle s hs := by
    show RCSketch.addBuffer s [] = _
    unfold RCSketch.addBuffer chunks
    rw [if_neg hs]
    rfl

/-- C175. A nest: both sides a `BufferedDigest` around a `MultiDigest` of sketches. -/
theorem C175_buffered_nest (s : SymDigest (BufferedDigest (MultiDigest (RCSketch K)) (Fl K))) (Q : Query K) :
    Partially (Q.askAny s) (fun r => ∀ Qs : List (Query K),
      Partially (askAllAny r.2 Qs) (fun s' => s' = r.2 ∧ Always (Q.askAny s') (fun r' => r' = r))) :=
  C175_answers (C175_sym (C175_buffered (C175_multi C175_rcsketch) (quiet_multi quiet_rcsketch))) s Q

/-- C175. The same with `RCSketch2`, buffered outside. -/
theorem C175_buffered_nest2 {sec : Nat → Nat} (s : BufferedDigest (SymDigest (MultiDigest (RC2 sec K))) (Fl K)) (Q : Query K) :
    Partially (Q.askAny s) (fun r => ∀ Qs : List (Query K),
      Partially (askAllAny r.2 Qs) (fun s' => s' = r.2 ∧ Always (Q.askAny s') (fun r' => r' = r))) :=
  C175_answers (C175_buffered (C175_sym (C175_multi C175_rcsketch2)) (quiet_sym (quiet_multi quiet_rcsketch2))) s Q

section examples
attribute [local instance] ratExact ratExact_exact

/-- Items still in the buffers when the first question is asked. -/
example : Always (execAll (SymDigest.new (BufferedDigest.new ⟨List.replicate 2 (RCSketch.fresh 64 4)⟩ 10)
        (BufferedDigest.new ⟨List.replicate 2 (RCSketch.fresh 64 4)⟩ 10) : SymDigest (BufferedDigest (MultiDigest (RCSketch ℚ)) (Fl ℚ)))
      [.addBuffer [.fin 3, .fin 1, .fin 2, .fin 5]] >>= fun s =>
    Query.askAny s (.value (.fin (1 / 4))) >>= fun r =>
    askAllAny r.2 [.quantile (.fin 2), .value (.fin (3 / 4))] >>= fun s' =>
    Query.askAny s' (.value (.fin (1 / 4))) >>= fun r' => .ret (s.low.buffer.length, r.1, r'.1)) (fun r => r = (4, .fin 2, .fin 2)) := by
  decide +kernel

end examples
end AQ

/-
Effects used by the code: panics and fair random bits.

`Prog α` is a computation of the Rust code that returns an `α`, panics, or first draws a fair bit.
-/
import Mathlib.Algebra.Order.Field.Rat
import Mathlib.Tactic.Ring
import Mathlib.Tactic.Linarith

namespace AQ

/-- Why a run stopped without a value. All but `fuel` are Rust panics; `fuel` is the model's own
"loop bound exhausted" marker (the no-panic theorems show that it does not occur). -/
inductive Err where
  /-- arithmetic over/underflow (debug assertions) -/
  | overflow
  /-- integer division by zero -/
  | divZero
  /-- slice/Vec index or split position out of bounds -/
  | oob
  /-- `unwrap`/`expect` on `None` -/
  | unwrap
  /-- explicit `panic!`/`assert!` -/
  | explicit
  /-- model loop bound exhausted (not a Rust panic) -/
  | fuel
  deriving DecidableEq, Repr

deriving instance DecidableEq for Except

/-- A computation with panics and fair coin flips. -/
inductive Prog (α : Type) where
  | ret (a : α)
  | fail (e : Err)
  | flip (f : Bool → Prog α)

namespace Prog
variable {α β γ : Type}

/-- Sequential composition. -/
def bind : Prog α → (α → Prog β) → Prog β
  | ret a, k => k a
  | fail e, _ => fail e
  | flip f, k => flip (fun b => bind (f b) k)

instance : Monad Prog where
  pure := ret
  bind := bind

@[simp] theorem pure_eq (a : α) : (pure a : Prog α) = ret a := rfl
@[simp] theorem bind_ret (a : α) (k : α → Prog β) : (ret a >>= k) = k a := rfl
@[simp] theorem bind_fail (e : Err) (k : α → Prog β) : (fail e >>= k) = fail e := rfl
@[simp] theorem bind_flip (f : Bool → Prog α) (k : α → Prog β) :
    (flip f >>= k) = flip (fun b => f b >>= k) := rfl

theorem bind_ret_right (p : Prog α) : (p >>= ret) = p := by
  induction p with
  | ret a => rfl
  | fail e => rfl
  | flip f ih => simp [ih]

theorem bind_assoc' (p : Prog α) (k : α → Prog β) (l : β → Prog γ) :
    ((p >>= k) >>= l) = (p >>= fun a => k a >>= l) := by
  induction p with
  | ret a => rfl
  | fail e => rfl
  | flip f ih => simp [ih]

instance : LawfulMonad Prog :=
  LawfulMonad.mk' Prog
    (fun p => bind_ret_right p)
    (fun _ _ => rfl)
    bind_assoc'

@[simp] theorem map_ret (f : α → β) (a : α) : (f <$> (ret a : Prog α)) = ret (f a) := by
  rw [map_eq_pure_bind]; rfl

/-- `Always p Q`: whatever the random bits, `p` returns (no panic) a value satisfying `Q`. -/
def Always : Prog α → (α → Prop) → Prop
  | ret a, Q => Q a
  | fail _, _ => False
  | flip f, Q => ∀ b, Always (f b) Q

/-- `Partially p Q`: whatever the random bits, if `p` returns a value then it satisfies `Q`. -/
def Partially : Prog α → (α → Prop) → Prop
  | ret a, Q => Q a
  | fail _, _ => True
  | flip f, Q => ∀ b, Partially (f b) Q

/-- `Panics p`: whatever the random bits, `p` stops with a Rust panic. -/
def Panics : Prog α → Prop
  | ret _ => False
  | fail e => e ≠ .fuel
  | flip f => ∀ b, Panics (f b)

/-- `CanReturn p a`: some sequence of random bits makes `p` return `a`. -/
def CanReturn : Prog α → α → Prop
  | ret b, a => b = a
  | fail _, _ => False
  | flip f, a => ∃ b, CanReturn (f b) a

/-- `CanFail p e`: some sequence of random bits makes `p` stop with `e`. -/
def CanFail : Prog α → Err → Prop
  | ret _, _ => False
  | fail e', e => e' = e
  | flip f, e => ∃ b, CanFail (f b) e

/-- Expectation of `g` over fair random bits; failing runs contribute `0`. -/
def exp : Prog α → (α → ℚ) → ℚ
  | ret a, g => g a
  | fail _, _ => 0
  | flip f, g => (exp (f false) g + exp (f true) g) / 2

/-- Run with a given list of coin outcomes (used for executable checks). -/
def run : Prog α → List Bool → Except Err α
  | ret a, _ => .ok a
  | fail e, _ => .error e
  | flip f, [] => run (f false) []
  | flip f, b :: bs => run (f b) bs

/-- Decision procedures, used only for concrete witnesses. -/
instance decPanics : (p : Prog α) → Decidable (Panics p)
  | ret _ => isFalse id
  | fail e => inferInstanceAs (Decidable (e ≠ .fuel))
  | flip f =>
    match decPanics (f false), decPanics (f true) with
    | isTrue h0, isTrue h1 => isTrue (fun b => by cases b <;> assumption)
    | isFalse h0, _ => isFalse (fun h => h0 (h false))
    | _, isFalse h1 => isFalse (fun h => h1 (h true))

instance decAlways (Q : α → Prop) [DecidablePred Q] : (p : Prog α) → Decidable (Always p Q)
  | ret a => inferInstanceAs (Decidable (Q a))
  | fail _ => isFalse id
  | flip f =>
    match decAlways Q (f false), decAlways Q (f true) with
    | isTrue h0, isTrue h1 => isTrue (fun b => by cases b <;> assumption)
    | isFalse h0, _ => isFalse (fun h => h0 (h false))
    | _, isFalse h1 => isFalse (fun h => h1 (h true))

instance decCanReturn [DecidableEq α] (a : α) : (p : Prog α) → Decidable (CanReturn p a)
  | ret b => inferInstanceAs (Decidable (b = a))
  | fail _ => isFalse id
  | flip f =>
    match decCanReturn a (f false), decCanReturn a (f true) with
    | isTrue h0, _ => isTrue ⟨false, h0⟩
    | _, isTrue h1 => isTrue ⟨true, h1⟩
    | isFalse h0, isFalse h1 => isFalse (fun ⟨b, h⟩ => by cases b <;> contradiction)

@[simp] theorem always_ret (a : α) (Q : α → Prop) : Always (ret a) Q ↔ Q a := Iff.rfl
@[simp] theorem always_fail (e : Err) (Q : α → Prop) : Always (fail e) Q ↔ False := Iff.rfl
@[simp] theorem always_flip (f : Bool → Prog α) (Q : α → Prop) :
    Always (flip f) Q ↔ ∀ b, Always (f b) Q := Iff.rfl
@[simp] theorem partially_ret (a : α) (Q : α → Prop) : Partially (ret a) Q ↔ Q a := Iff.rfl
@[simp] theorem partially_fail (e : Err) (Q : α → Prop) : Partially (fail e) Q ↔ True := Iff.rfl
@[simp] theorem partially_flip (f : Bool → Prog α) (Q : α → Prop) :
    Partially (flip f) Q ↔ ∀ b, Partially (f b) Q := Iff.rfl

theorem always_iff (p : Prog α) (Q : α → Prop) :
    Always p Q ↔ (∀ a, CanReturn p a → Q a) ∧ ∀ e, ¬ CanFail p e := by
  induction p with
  | ret a => simp [CanReturn, CanFail]
  | fail e => simp [CanReturn, CanFail]
  | flip f ih =>
    simp only [always_flip, ih, CanReturn, CanFail]
    constructor
    · intro h
      refine ⟨?_, ?_⟩
      · rintro a ⟨b, hb⟩; exact (h b).1 a hb
      · rintro e ⟨b, hb⟩; exact (h b).2 e hb
    · intro h b
      exact ⟨fun a ha => h.1 a ⟨b, ha⟩, fun e he => h.2 e ⟨b, he⟩⟩

theorem partially_iff (p : Prog α) (Q : α → Prop) :
    Partially p Q ↔ ∀ a, CanReturn p a → Q a := by
  induction p with
  | ret a => simp [CanReturn]
  | fail e => simp [CanReturn]
  | flip f ih =>
    simp only [partially_flip, ih, CanReturn]
    constructor
    · rintro h a ⟨b, hb⟩; exact h b a hb
    · intro h b a ha; exact h a ⟨b, ha⟩

theorem Always.mono {p : Prog α} {Q R : α → Prop} (h : Always p Q) (hQR : ∀ a, Q a → R a) :
    Always p R := by
  induction p with
  | ret a => exact hQR a h
  | fail e => exact h
  | flip f ih => intro b; exact ih b (h b)

theorem Partially.mono {p : Prog α} {Q R : α → Prop} (h : Partially p Q) (hQR : ∀ a, Q a → R a) :
    Partially p R := by
  induction p with
  | ret a => exact hQR a h
  | fail e => exact h
  | flip f ih => intro b; exact ih b (h b)

theorem Always.partially {p : Prog α} {Q : α → Prop} (h : Always p Q) : Partially p Q := by
  induction p with
  | ret a => exact h
  | fail e => trivial
  | flip f ih => intro b; exact ih b (h b)

theorem Always.and {p : Prog α} {Q R : α → Prop} (h : Always p Q) (h' : Partially p R) :
    Always p (fun a => Q a ∧ R a) := by
  induction p with
  | ret a => exact ⟨h, h'⟩
  | fail e => exact h
  | flip f ih => intro b; exact ih b (h b) (h' b)

theorem Partially.and {p : Prog α} {Q R : α → Prop} (h : Partially p Q) (h' : Partially p R) :
    Partially p (fun a => Q a ∧ R a) := by
  induction p with
  | ret a => exact ⟨h, h'⟩
  | fail e => trivial
  | flip f ih => intro b; exact ih b (h b) (h' b)

theorem partially_true (p : Prog α) : Partially p (fun _ => True) := by
  induction p with
  | ret a => trivial
  | fail e => trivial
  | flip f ih => intro b; exact ih b

theorem always_bind {p : Prog α} {k : α → Prog β} {Q : β → Prop} :
    Always (p >>= k) Q ↔ Always p (fun a => Always (k a) Q) := by
  induction p with
  | ret a => rfl
  | fail e => rfl
  | flip f ih => simp [ih]

theorem partially_bind {p : Prog α} {k : α → Prog β} {Q : β → Prop} :
    Partially (p >>= k) Q ↔ Partially p (fun a => Partially (k a) Q) := by
  induction p with
  | ret a => rfl
  | fail e => rfl
  | flip f ih => simp [ih]

@[simp] theorem exp_ret (a : α) (g : α → ℚ) : exp (ret a) g = g a := rfl
@[simp] theorem exp_flip (f : Bool → Prog α) (g : α → ℚ) :
    exp (flip f) g = (exp (f false) g + exp (f true) g) / 2 := rfl

theorem exp_bind (p : Prog α) (k : α → Prog β) (g : β → ℚ) :
    exp (p >>= k) g = exp p (fun a => exp (k a) g) := by
  induction p with
  | ret a => rfl
  | fail e => rfl
  | flip f ih => simp [ih]

/-- Expectation only depends on the values of `g` on the possible results. -/
theorem exp_congr {p : Prog α} {g g' : α → ℚ} (h : Partially p (fun a => g a = g' a)) :
    exp p g = exp p g' := by
  induction p with
  | ret a => exact h
  | fail e => rfl
  | flip f ih => simp [ih false (h false), ih true (h true)]

theorem exp_add (p : Prog α) (g g' : α → ℚ) :
    exp p (fun a => g a + g' a) = exp p g + exp p g' := by
  induction p with
  | ret a => rfl
  | fail e => simp [exp]
  | flip f ih => simp [ih]; ring

theorem exp_mul_left (p : Prog α) (c : ℚ) (g : α → ℚ) :
    exp p (fun a => c * g a) = c * exp p g := by
  induction p with
  | ret a => rfl
  | fail e => simp [exp]
  | flip f ih => simp [ih]; ring

theorem exp_const {p : Prog α} (h : Always p (fun _ => True)) (c : ℚ) :
    exp p (fun _ => c) = c := by
  induction p with
  | ret a => rfl
  | fail e => exact h.elim
  | flip f ih => simp [ih _ (h _)]

theorem exp_mono {p : Prog α} {g g' : α → ℚ} (h : Partially p (fun a => g a ≤ g' a)) :
    exp p g ≤ exp p g' := by
  induction p with
  | ret a => exact h
  | fail e => exact le_refl _
  | flip f ih => have := ih false (h false); have := ih true (h true); simp; linarith

/-- A run that cannot panic and whose results all equal `a` returns `a` for every choice of bits. -/
theorem Always.ret_of_eq {p : Prog α} {Q : α → Prop} (h : Always p Q) : ∃ a, CanReturn p a ∧ Q a := by
  induction p with
  | ret a => exact ⟨a, rfl, h⟩
  | fail e => exact h.elim
  | flip f ih => obtain ⟨a, ha, hq⟩ := ih true (h true); exact ⟨a, ⟨true, ha⟩, hq⟩

/-- Rust indexing `v[i]`: panics when out of bounds. -/
def idx (l : List α) (i : Nat) : Prog α :=
  match l[i]? with
  | some a => ret a
  | none => fail .oob

/-- `Option::unwrap`. -/
def unwrap : Option α → Prog α
  | some a => ret a
  | none => fail .unwrap

/-- `usize` subtraction: panics on underflow. -/
def usub (a b : Nat) : Prog Nat := if b ≤ a then ret (a - b) else fail .overflow

@[simp] theorem unwrap_some (a : α) : unwrap (some a) = ret a := rfl
@[simp] theorem unwrap_none : unwrap (none : Option α) = fail .unwrap := rfl

theorem idx_eq {l : List α} {i : Nat} (h : i < l.length) : idx l i = ret l[i] := by
  simp [idx, h]

theorem usub_eq {a b : Nat} (h : b ≤ a) : usub a b = ret (a - b) := by simp [usub, h]

theorem panics_of_always {β : Type} : ∀ {p : Prog α} {f : α → Prog β}, Always p (fun a => Panics (f a)) →
    Panics (p >>= f)
  | .ret _, _, h => h
  | .fail _, _, h => h.elim
  | .flip _, _, h => fun b => panics_of_always (h b)

theorem panics_bind_left {β : Type} : ∀ {p : Prog α} {f : α → Prog β}, Panics p → Panics (p >>= f)
  | .ret _, _, h => h.elim
  | .fail _, _, h => h
  | .flip _, _, h => fun b => panics_bind_left (h b)

end Prog
end AQ

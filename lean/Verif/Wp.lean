import Verif.Engine
import Verif.ExprThm

set_option autoImplicit false
set_option linter.unusedSectionVars false

/-!
# Reasoning about computations

`wp C m Q`: if `m` returns a result and all recorded conditions have the property `C`, the result has
the property `Q`.
-/

namespace Tsym

open Expr

variable {D : Type}

/-- If the computation ends with a result and all conditions satisfy `C`, the result satisfies `Q`. -/
def wp {α : Type} (C : Cond D → Prop) (m : M D α) (Q : α → Prop) : Prop :=
  ∀ a cs, m = Except.ok (a, cs) → (∀ c ∈ cs, C c) → Q a

/-- The result without the conditions. -/
def M.val {α : Type} (m : M D α) : Option α :=
  match m with
  | Except.error _ => none
  | Except.ok p => some p.1

theorem M.val_some {α : Type} {m : M D α} {r : α} (h : M.val m = some r) :
    ∃ cs, m = Except.ok (r, cs) := by
  unfold M.val at h
  split at h
  · simp at h
  · rename_i p
    cases h
    exact ⟨p.2, rfl⟩

section

variable {α β : Type} {C : Cond D → Prop}

theorem M.pure_eq (a : α) : (Pure.pure a : M D α) = Except.ok (a, []) := rfl

theorem M.bind_eq (m : M D α) (f : α → M D β) : (m >>= f) = M.bind m f := rfl

theorem M.bind_ok {m : M D α} {f : α → M D β} {b : β} {cs : List (Cond D)} :
    (m >>= f) = Except.ok (b, cs) ↔ ∃ a cs1 cs2, m = Except.ok (a, cs1) ∧ f a = Except.ok (b, cs2) ∧
      cs = cs1 ++ cs2 := by
  rw [M.bind_eq]
  unfold M.bind
  rcases m with e | ⟨a, cs1⟩
  · simp
  · rcases hf : f a with e | ⟨b', ds⟩
    · simp only [hf]
      constructor
      · intro h
        cases h
      · rintro ⟨a', c1, c2, h1, h2, h3⟩
        cases h1
        rw [hf] at h2
        cases h2
    · constructor
      · intro h
        simp only [hf] at h
        cases h
        exact ⟨a, cs1, ds, rfl, hf, rfl⟩
      · rintro ⟨a', c1, c2, h1, h2, h3⟩
        cases h1
        rw [hf] at h2
        cases h2
        simp only [hf, h3]
        rfl

theorem wp_mono {m : M D α} {P Q : α → Prop} (h : wp C m P) (hPQ : ∀ a, P a → Q a) : wp C m Q :=
  fun a cs hm hc => hPQ a (h a cs hm hc)

theorem wp_pure {a : α} {Q : α → Prop} (h : Q a) : wp C (Pure.pure a : M D α) Q := by
  intro b cs hb _
  cases hb
  exact h

theorem wp_err {e : Err} {Q : α → Prop} : wp C (M.err e : M D α) Q := by
  intro b cs hb _
  simp [M.err] at hb

theorem wp_bind {m : M D α} {f : α → M D β} {P : α → Prop} {Q : β → Prop} (hm : wp C m P)
    (hf : ∀ a, P a → wp C (f a) Q) : wp C (m >>= f) Q := by
  intro b cs hb hc
  obtain ⟨a, c1, c2, h1, h2, rfl⟩ := M.bind_ok.1 hb
  exact hf a (hm a c1 h1 fun c h => hc c (List.mem_append_left _ h)) b c2 h2
    fun c h => hc c (List.mem_append_right _ h)

theorem wp_and {m : M D α} {P Q : α → Prop} (h1 : wp C m P) (h2 : wp C m Q) :
    wp C m fun a => P a ∧ Q a :=
  fun a cs hm hc => ⟨h1 a cs hm hc, h2 a cs hm hc⟩

theorem wp_true {m : M D α} : wp C m fun _ => True := fun _ _ _ _ => trivial

/-- A fact about the results of a computation that does not depend on conditions. -/
theorem wp_of_true {m : M D α} {Q : α → Prop} (h : wp (fun _ => True) m Q) : wp C m Q :=
  fun a cs hm _ => h a cs hm fun _ _ => trivial

theorem wp_forall {ι : Sort*} {m : M D α} {Q : ι → α → Prop} (h : ∀ i, wp C m (Q i)) :
    wp C m fun a => ∀ i, Q i a :=
  fun a cs hm hc i => h i a cs hm hc

theorem wp_imp {m : M D α} {p : Prop} {Q : α → Prop} (h : p → wp C m Q) : wp C m fun a => p → Q a :=
  fun a cs hm hc hp => h hp a cs hm hc

theorem wp_ite {c : Prop} [Decidable c] {m1 m2 : M D α} {Q : α → Prop} (h1 : c → wp C m1 Q)
    (h2 : ¬ c → wp C m2 Q) : wp C (if c then m1 else m2) Q := by
  split
  · exact h1 ‹_›
  · exact h2 ‹_›

theorem wp_lift {x : Except Err α} {Q : α → Prop} (h : ∀ a, x = .ok a → Q a) :
    wp C (M.lift x : M D α) Q := by
  intro b cs hb _
  unfold M.lift at hb
  split at hb
  · simp at hb
  · cases hb
    exact h _ rfl

theorem wp_emit {cs : List (Cond D)} {Q : Unit → Prop} (h : (∀ c ∈ cs, C c) → Q ()) :
    wp C (M.emit cs) Q := by
  intro b ds hb hc
  cases hb
  exact h hc

theorem wp_log {c : Cond D} {Q : Unit → Prop} (h : C c → Q ()) : wp C (M.log c) Q :=
  wp_emit fun hc => h (hc c (by simp))

theorem wp_logIf {b : Bool} {c : Cond D} {Q : Unit → Prop} (h : (b = true → C c) → Q ()) :
    wp C (M.logIf b c) Q := by
  refine wp_emit fun hc => h fun hb => hc c (by simp [hb])

/-- The conditions are returned; they can be used when they are recorded later. -/
theorem wp_capture {m : M D α} {Q : α × List (Cond D) → Prop}
    (h : ∀ a cs, m = Except.ok (a, cs) → Q (a, cs)) : wp C (M.capture m) Q := by
  intro p cs hp _
  unfold M.capture at hp
  split at hp
  · simp at hp
  · cases hp
    exact h _ _ rfl

theorem wp_silent {m : M D α} {Q : α → Prop} (h : wp (fun _ => True) m Q) :
    wp C (M.silent m) Q := by
  unfold M.silent
  refine wp_bind (P := fun p => Q p.1) (wp_capture fun a cs hm => h a cs hm fun _ _ => trivial) ?_
  exact fun p hp => wp_pure hp

theorem wp_whenTrue {m : M D Bool} {P : Prop} (h : wp C m fun b => b = true → P) :
    wp C (M.whenTrue m) fun b => b = true → P := by
  unfold M.whenTrue
  refine wp_bind (P := fun p => (∀ c ∈ p.2, C c) → p.1 = true → P)
    (wp_capture fun a cs hm => h a cs hm) ?_
  intro p hp
  refine wp_ite (fun hb => ?_) fun _ => wp_pure (by simp)
  exact wp_bind (P := fun _ => P) (wp_emit fun hc => hp hc hb) fun _ h => wp_pure fun _ => h

theorem wp_withinM {m : M D α} {mp : List (Sym × Expr D)} {Q : α → Prop}
    (h : wp (fun c => C (.within mp c)) m Q) : wp C (M.withinM mp m) Q := by
  unfold M.withinM
  refine wp_bind (P := fun p => (∀ c ∈ p.2, C (.within mp c)) → Q p.1)
    (wp_capture fun a cs hm => h a cs hm) ?_
  intro p hp
  refine wp_bind (P := fun _ => Q p.1) (wp_emit fun hc => hp fun c h => hc _ ?_) fun _ h => wp_pure h
  exact List.mem_map_of_mem h

theorem wp_loop {S R : Type} {f : S → M D (S ⊕ R)} {I : S → Prop} {Q : R → Prop}
    (h : ∀ s, I s → wp C (f s) fun r => (∀ s', r = .inl s' → I s') ∧ ∀ x, r = .inr x → Q x) :
    ∀ (n : Nat) (s : S), I s → wp C (M.loop n f s) Q
  | 0, _, _ => wp_err
  | n + 1, s, hs => by
    unfold M.loop
    refine wp_bind (h s hs) ?_
    rintro (s' | x) ⟨h1, h2⟩
    · exact wp_loop h n s' (h1 s' rfl)
    · exact wp_pure (h2 x rfl)

theorem wp_mapL {f : α → M D β} {R : α → β → Prop} {l : List α}
    (h : ∀ a ∈ l, wp C (f a) (R a)) : wp C (M.mapL f l) (List.Forall₂ R l) := by
  induction l with
  | nil => exact wp_pure .nil
  | cons a l ih =>
    unfold M.mapL
    refine wp_bind (h a (by simp)) fun b hb => ?_
    refine wp_bind (ih fun x hx => h x (by simp [hx])) fun r hr => ?_
    exact wp_pure (.cons hb hr)

theorem wp_foldL {f : β → α → M D β} {I : List α → β → Prop} {l : List α}
    (h : ∀ a l b, I (a :: l) b → wp C (f b a) (I l)) : ∀ b, I l b → wp C (M.foldL f b l) (I []) := by
  induction l with
  | nil => exact fun b hb => wp_pure hb
  | cons a l ih =>
    intro b hb
    unfold M.foldL
    exact wp_bind (h a l b hb) fun b' hb' => ih b' hb'

end

end Tsym

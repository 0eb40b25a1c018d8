import Verif.Mono

set_option autoImplicit false

/-!
# Calls that return

`Tot cfg f a`: with enough depth, the function `f` of the library returns `a`, and no condition is
recorded.
-/

namespace Tsym

open Expr

variable {D : Type} [Flt D] {cfg : Cfg D}

/-- With enough depth, `f` returns `a` and records no condition. -/
def Tot (cfg : Cfg D) {α : Type} (f : Eng D → M D α) (a : α) : Prop :=
  ∃ N, ∀ n, N ≤ n → f (eng cfg n) = Except.ok (a, [])

theorem tot_pure {α : Type} (a : α) : Tot cfg (fun _ => pure a) a := ⟨0, fun _ _ => rfl⟩

theorem tot_lift {α : Type} {x : Except Err α} {a : α} (h : x = .ok a) : Tot cfg (fun _ => M.lift x) a :=
  ⟨0, fun _ _ => by rw [h]; rfl⟩

theorem tot_bind {α β : Type} {f : Eng D → M D α} {g : Eng D → α → M D β} {a : α} {b : β}
    (hf : Tot cfg f a) (hg : Tot cfg (fun E => g E a) b) : Tot cfg (fun E => f E >>= g E) b := by
  obtain ⟨N, hN⟩ := hf
  obtain ⟨K, hK⟩ := hg
  refine ⟨max N K, fun n hn => ?_⟩
  change M.bind (f (eng cfg n)) (g (eng cfg n)) = _
  rw [hN n (by omega)]
  simp only [M.bind]
  have := hK n (by omega)
  dsimp only at this
  rw [this]
  rfl

theorem tot_congr {α : Type} {f g : Eng D → M D α} {a : α} (h : ∀ E, g E = f E) (hf : Tot cfg f a) : Tot cfg g a := by
  obtain ⟨N, hN⟩ := hf
  exact ⟨N, fun n hn => by rw [h, hN n hn]⟩

theorem tot_succ {α : Type} {f g : Eng D → M D α} {a : α} (h : ∀ n, g (eng cfg (n + 1)) = f (eng cfg n))
    (hf : Tot cfg f a) : Tot cfg g a := by
  obtain ⟨N, hN⟩ := hf
  refine ⟨N + 1, fun n hn => ?_⟩
  obtain ⟨m, rfl⟩ : ∃ m, n = m + 1 := ⟨n - 1, by omega⟩
  rw [h, hN m (by omega)]

/-- The result is unique. -/
theorem Tot.unique {α : Type} {f : Eng D → M D α} {a b : α} (h : Tot cfg f a) (h' : Tot cfg f b) : a = b := by
  obtain ⟨N, hN⟩ := h
  obtain ⟨K, hK⟩ := h'
  have h1 := hN (max N K) (by omega)
  have h2 := hK (max N K) (by omega)
  rw [h1] at h2
  cases h2
  rfl

section fields

theorem tot_sum {l : List (Expr D)} {a} (h : Tot cfg (fun E => sumCreate E l) a) : Tot cfg (fun E => E.sumCreate l) a :=
  tot_succ (fun _ => rfl) h
theorem tot_prod {l : List (Expr D)} {a} (h : Tot cfg (fun E => prodCreate E l) a) : Tot cfg (fun E => E.prodCreate l) a :=
  tot_succ (fun _ => rfl) h
theorem tot_pow {b e : Expr D} {a} (h : Tot cfg (fun E => powCreate E b e) a) : Tot cfg (fun E => E.powCreate b e) a :=
  tot_succ (fun _ => rfl) h
theorem tot_isPos {e : Expr D} {a} (h : Tot cfg (fun E => isPos E e) a) : Tot cfg (fun E => E.isPos e) a :=
  tot_succ (fun _ => rfl) h
theorem tot_isNeg {e : Expr D} {a} (h : Tot cfg (fun E => isNeg E e) a) : Tot cfg (fun E => E.isNeg e) a :=
  tot_succ (fun _ => rfl) h
theorem tot_expand {e : Expr D} {a} (h : Tot cfg (fun E => expand E e) a) : Tot cfg (fun E => E.expand e) a :=
  tot_succ (fun _ => rfl) h
theorem tot_expandAsProduct {l : List (Expr D)} {a} (h : Tot cfg (fun E => expandAsProduct E l) a) :
    Tot cfg (fun E => E.expandAsProduct l) a :=
  tot_succ (fun _ => rfl) h
theorem tot_simplSum {l : List (Expr D)} {a} (h : Tot cfg (fun E => simplSum E l) a) : Tot cfg (fun E => E.simplSum l) a :=
  tot_succ (fun _ => rfl) h
theorem tot_sumSimplify {l : List (Expr D)} {a} (h : Tot cfg (fun E => simplSum E l) a) :
    Tot cfg (fun E => E.sumSimplify l) a :=
  tot_succ (fun _ => rfl) h
theorem tot_mergeSum {l m : List (Expr D)} {a} (h : Tot cfg (fun E => mergeSum E l m) a) :
    Tot cfg (fun E => E.mergeSum l m) a :=
  tot_succ (fun _ => rfl) h
theorem tot_simplProd {l : List (Expr D)} {a} (h : Tot cfg (fun E => simplProd E l) a) : Tot cfg (fun E => E.simplProd l) a :=
  tot_succ (fun _ => rfl) h
theorem tot_prodSimplify {l : List (Expr D)} {a} (h : Tot cfg (fun E => simplProd E l) a) :
    Tot cfg (fun E => E.prodSimplify l) a :=
  tot_succ (fun _ => rfl) h
theorem tot_mergeProd {l m : List (Expr D)} {a} (h : Tot cfg (fun E => mergeProd E l m) a) :
    Tot cfg (fun E => E.mergeProd l m) a :=
  tot_succ (fun _ => rfl) h
theorem tot_simplPow {b e : Expr D} {a} (h : Tot cfg (fun E => simplPow E b e) a) : Tot cfg (fun E => E.simplPow b e) a :=
  tot_succ (fun _ => rfl) h
theorem tot_subst {x r e : Expr D} {a} (h : Tot cfg (fun E => subst E x r e) a) : Tot cfg (fun E => E.subst x r e) a :=
  tot_succ (fun _ => rfl) h
theorem tot_diff {x e : Expr D} {a} (h : Tot cfg (fun E => diff E x e) a) : Tot cfg (fun E => E.diff x e) a :=
  tot_succ (fun _ => rfl) h
theorem tot_coeff {x e : Expr D} {n : ℤ} {a} (h : Tot cfg (fun E => coeff E x n e) a) : Tot cfg (fun E => E.coeff x n e) a :=
  tot_succ (fun _ => rfl) h
theorem tot_log {e : Expr D} {a} (h : Tot cfg (fun E => logCreate E e) a) : Tot cfg (fun E => E.logCreate e) a :=
  tot_succ (fun _ => rfl) h

end fields

theorem eng_steps (n : Nat) : (eng cfg n).steps = n := by
  induction n with
  | zero => rfl
  | succ n ih => change (eng cfg n).steps + 1 = _; rw [ih]

theorem tot_capture {α : Type} {f : Eng D → M D α} {a : α} (h : Tot cfg f a) :
    Tot cfg (fun E => M.capture (f E)) (a, []) := by
  obtain ⟨N, hN⟩ := h
  exact ⟨N, fun n hn => by dsimp only; rw [hN n hn]; rfl⟩

theorem tot_silent {α : Type} {f : Eng D → M D α} {a : α} (h : Tot cfg f a) : Tot cfg (fun E => M.silent (f E)) a :=
  tot_bind (tot_capture h) (tot_pure _)

theorem tot_emit : Tot cfg (fun _ => (M.emit [] : M D Unit)) () := ⟨0, fun _ _ => rfl⟩

theorem tot_whenTrue {f : Eng D → M D Bool} {a : Bool} (h : Tot cfg f a) : Tot cfg (fun E => M.whenTrue (f E)) a := by
  refine tot_bind (tot_capture h) ?_
  cases a
  · exact tot_pure _
  · exact tot_bind (g := fun _ _ => pure true) tot_emit (tot_pure _)

theorem tot_logIf {b : Bool} {c : Cond D} (h : b = false) : Tot cfg (fun _ => M.logIf b c) () := by
  subst h; exact ⟨0, fun _ _ => rfl⟩

/-- The rounds of a loop. -/
inductive Rounds (cfg : Cfg D) {S R : Type} (f : Eng D → S → M D (S ⊕ R)) (r : R) : S → Prop
  | done (s : S) : Tot cfg (fun E => f E s) (.inr r) → Rounds cfg f r s
  | next (s s' : S) : Tot cfg (fun E => f E s) (.inl s') → Rounds cfg f r s' → Rounds cfg f r s

theorem tot_loop {S R : Type} {f : Eng D → S → M D (S ⊕ R)} {r : R} {s : S} (h : Rounds cfg f r s) :
    Tot cfg (fun E => M.loop E.steps (f E) s) r := by
  suffices ∃ N K, ∀ n, N ≤ n → ∀ m, K ≤ m → M.loop m (f (eng cfg n)) s = Except.ok (r, []) by
    obtain ⟨N, K, h⟩ := this
    refine ⟨max N K, fun n hn => ?_⟩
    dsimp only
    rw [eng_steps]
    exact h n (by omega) n (by omega)
  induction h with
  | done s h =>
    obtain ⟨N, hN⟩ := h
    refine ⟨N, 1, fun n hn m hm => ?_⟩
    obtain ⟨k, rfl⟩ : ∃ k, m = k + 1 := ⟨m - 1, by omega⟩
    change M.bind _ _ = _
    have := hN n hn
    dsimp only at this
    rw [this]
    rfl
  | next s s' h _ ih =>
    obtain ⟨N, hN⟩ := h
    obtain ⟨N', K, ih⟩ := ih
    refine ⟨max N N', K + 1, fun n hn m hm => ?_⟩
    obtain ⟨k, rfl⟩ : ∃ k, m = k + 1 := ⟨m - 1, by omega⟩
    change M.bind _ _ = _
    have := hN n (by omega)
    dsimp only at this
    rw [this]
    simp only [M.bind]
    rw [ih n (by omega) k (by omega)]
    rfl

/-- The same function for all elements of a list. -/
theorem tot_mapL {α β : Type} {f : Eng D → α → M D β} {g : α → β} {l : List α}
    (h : ∀ a ∈ l, Tot cfg (fun E => f E a) (g a)) : Tot cfg (fun E => M.mapL (f E) l) (l.map g) := by
  induction l with
  | nil => exact tot_pure _
  | cons a l ih =>
    refine tot_bind (h a (by simp)) (tot_bind (ih fun b hb => h b (by simp [hb])) ?_)
    exact tot_pure _

end Tsym

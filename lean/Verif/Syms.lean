import Verif.Wp

set_option autoImplicit false
set_option linter.unusedSectionVars false

/-!
# Symbols of results: the framework

`Sy S m`: all symbols in the result of the computation `m` satisfy `S`. The proofs for the functions
of the library assume this of the functions they call (`Syms E`).
-/

namespace Tsym

open Expr

variable {D : Type} [Flt D]

/-- Every symbol in the expression satisfies `S`. -/
def Within (S : Sym → Prop) (e : Expr D) : Prop := ∀ s, Occurs (.sym s) e → S s

section

variable {S : Sym → Prop}

@[simp] theorem within_num (n : Number D) : Within S (.num n) := by
  intro s h; rw [occurs_iff] at h; simp [operands] at h

@[simp] theorem within_cst (c : Cst) : Within S (.cst c : Expr D) := by
  intro s h; rw [occurs_iff] at h; simp [operands] at h

@[simp] theorem within_undef : Within S (.undef : Expr D) := by
  intro s h; rw [occurs_iff] at h; simp [operands] at h

@[simp] theorem within_sym (t : Sym) : Within S (.sym t : Expr D) ↔ S t := by
  constructor
  · exact fun h => h t .refl
  · intro h s hs
    rw [occurs_iff] at hs
    simp [operands] at hs
    exact hs ▸ h

theorem within_ops {e : Expr D} (h : ∀ s, e ≠ .sym s) :
    Within S e ↔ ∀ o ∈ operands e, Within S o := by
  constructor
  · exact fun he o ho s hs => he s (.op ho hs)
  · intro he s hs
    rw [occurs_iff] at hs
    rcases hs with rfl | ⟨o, ho, hs⟩
    · exact absurd rfl (h s)
    · exact he o ho s hs

@[simp] theorem within_sum (l : List (Expr D)) : Within S (.sum l) ↔ ∀ x ∈ l, Within S x := by
  rw [within_ops (by simp)]; simp [operands]

@[simp] theorem within_prod (l : List (Expr D)) : Within S (.prod l) ↔ ∀ x ∈ l, Within S x := by
  rw [within_ops (by simp)]; simp [operands]

@[simp] theorem within_pow (b e : Expr D) : Within S (.pow b e) ↔ Within S b ∧ Within S e := by
  rw [within_ops (by simp)]; simp [operands]

@[simp] theorem within_fn (f : Fn) (a : Expr D) : Within S (.fn f a) ↔ Within S a := by
  rw [within_ops (by simp)]; simp [operands]

@[simp] theorem within_atan2 (y x : Expr D) : Within S (.atan2 y x) ↔ Within S y ∧ Within S x := by
  rw [within_ops (by simp)]; simp [operands]

@[simp] theorem within_zero : Within S (zero : Expr D) := within_num _
@[simp] theorem within_one : Within S (one : Expr D) := within_num _
@[simp] theorem within_mOne : Within S (mOne : Expr D) := within_num _
@[simp] theorem within_two : Within S (two : Expr D) := within_num _
@[simp] theorem within_three : Within S (three : Expr D) := within_num _
@[simp] theorem within_half : Within S (half : Expr D) := within_num _
@[simp] theorem within_fourth : Within S (fourth : Expr D) := within_num _
@[simp] theorem within_int (n : ℤ) : Within S (int n : Expr D) := within_num _
@[simp] theorem within_ratE (q : ℚ) : Within S (ratE q : Expr D) := within_num _
@[simp] theorem within_piE : Within S (piE : Expr D) := within_cst _

theorem within_base {e : Expr D} (h : Within S e) : Within S e.base := by
  cases e <;> simp_all [Expr.base]

theorem within_exp {e : Expr D} (h : Within S e) : Within S e.exp := by
  cases e <;> simp_all [Expr.exp]

theorem within_operands {e : Expr D} (h : Within S e) : ∀ o ∈ e.operands, Within S o :=
  fun _ ho s hs => h s (.op ho hs)

theorem Within.mono {T : Sym → Prop} {e : Expr D} (h : Within S e) (hST : ∀ s, S s → T s) :
    Within T e := fun s hs => hST s (h s hs)

theorem within_and {T : Sym → Prop} {e : Expr D} (h1 : Within S e) (h2 : Within T e) :
    Within (fun s => S s ∧ T s) e := fun s hs => ⟨h1 s hs, h2 s hs⟩

end

/-- Results whose symbols matter. -/
class HasSyms (α : Type) where
  ws : (Sym → Prop) → α → Prop

open HasSyms

instance : HasSyms (Expr D) := ⟨Within⟩
instance {α : Type} [HasSyms α] : HasSyms (List α) := ⟨fun S l => ∀ x ∈ l, ws S x⟩
instance {α β : Type} [HasSyms α] [HasSyms β] : HasSyms (α × β) := ⟨fun S p => ws S p.1 ∧ ws S p.2⟩
instance {α : Type} [HasSyms α] : HasSyms (Option α) := ⟨fun S o => ∀ x, o = some x → ws S x⟩
instance {α β : Type} [HasSyms α] [HasSyms β] : HasSyms (α ⊕ β) :=
  ⟨fun S r => (∀ x, r = .inl x → ws S x) ∧ ∀ x, r = .inr x → ws S x⟩
instance : HasSyms (Number D) := ⟨fun _ _ => True⟩
instance : HasSyms Bool := ⟨fun _ _ => True⟩
instance : HasSyms Nat := ⟨fun _ _ => True⟩
instance : HasSyms ℤ := ⟨fun _ _ => True⟩
instance : HasSyms Unit := ⟨fun _ _ => True⟩
instance : HasSyms (Cond D) := ⟨fun _ _ => True⟩
instance : HasSyms (Payload D) := ⟨fun _ _ => True⟩
instance : HasSyms (Frac D) := ⟨fun S f => Within S f.num ∧ Within S f.denom⟩
instance : HasSyms (NumTrigo.Entry D) := ⟨fun S t => Within S t.key ∧ Within S t.value⟩
instance : HasSyms (ContractState D) := ⟨fun S s => (∀ x ∈ s.pre, Within S x) ∧ Within S s.x ∧
  (∀ x ∈ s.mid, Within S x) ∧ ∀ x ∈ s.rest, Within S x⟩
instance : HasSyms (SubresState D) := ⟨fun S s => Within S s.U ∧ Within S s.V ∧ Within S s.beta ∧
  Within S s.psi⟩

section

variable {S : Sym → Prop} {α β : Type}

@[simp] theorem ws_expr (e : Expr D) : ws S e ↔ Within S e := Iff.rfl
@[simp] theorem ws_list [HasSyms α] (l : List α) : ws S l ↔ ∀ x ∈ l, ws S x := Iff.rfl
@[simp] theorem ws_pair [HasSyms α] [HasSyms β] (p : α × β) : ws S p ↔ ws S p.1 ∧ ws S p.2 := Iff.rfl
@[simp] theorem ws_none [HasSyms α] : ws S (none : Option α) := by intro x h; simp at h
@[simp] theorem ws_some [HasSyms α] (a : α) : ws S (some a) ↔ ws S a :=
  ⟨fun h => h a rfl, fun h x hx => by cases hx; exact h⟩
@[simp] theorem ws_inl [HasSyms α] [HasSyms β] (a : α) : ws S (.inl a : α ⊕ β) ↔ ws S a :=
  ⟨fun h => h.1 a rfl, fun h => ⟨fun x hx => (by cases hx; exact h), fun x hx => (by cases hx)⟩⟩
@[simp] theorem ws_inr [HasSyms α] [HasSyms β] (b : β) : ws S (.inr b : α ⊕ β) ↔ ws S b :=
  ⟨fun h => h.2 b rfl, fun h => ⟨fun x hx => (by cases hx), fun x hx => (by cases hx; exact h)⟩⟩
@[simp] theorem ws_number (n : Number D) : ws S n := trivial
@[simp] theorem ws_bool (b : Bool) : ws S b := trivial
@[simp] theorem ws_nat (b : Nat) : ws S b := trivial
@[simp] theorem ws_int (b : ℤ) : ws S b := trivial
@[simp] theorem ws_unit (b : Unit) : ws S b := trivial
@[simp] theorem ws_cond (c : Cond D) : ws S c := trivial
@[simp] theorem ws_payload (p : Payload D) : ws S p := trivial
@[simp] theorem ws_frac (f : Frac D) : ws S f ↔ Within S f.num ∧ Within S f.denom := Iff.rfl
@[simp] theorem ws_entry (t : NumTrigo.Entry D) : ws S t ↔ Within S t.key ∧ Within S t.value := Iff.rfl
@[simp] theorem ws_contract (s : ContractState D) : ws S s ↔ (∀ x ∈ s.pre, Within S x) ∧
  Within S s.x ∧ (∀ x ∈ s.mid, Within S x) ∧ ∀ x ∈ s.rest, Within S x := Iff.rfl
@[simp] theorem ws_subres (s : SubresState D) : ws S s ↔ Within S s.U ∧ Within S s.V ∧
  Within S s.beta ∧ Within S s.psi := Iff.rfl

end

/-- All symbols in the result satisfy `S`. -/
def Sy {α : Type} [HasSyms α] (S : Sym → Prop) (m : M D α) : Prop := wp (fun _ => True) m (ws S)

section

variable {S : Sym → Prop} {α β : Type} [HasSyms α] [HasSyms β]

theorem Sy.pure {a : α} (h : ws S a) : Sy S (Pure.pure a : M D α) := wp_pure h

theorem Sy.err {e : Err} : Sy S (M.err e : M D α) := wp_err

theorem Sy.bind {m : M D α} {f : α → M D β} (hm : Sy S m) (hf : ∀ a, ws S a → Sy S (f a)) :
    Sy S (m >>= f) := wp_bind hm hf

theorem Sy.lift {x : Except Err α} (h : ∀ a, x = .ok a → ws S a) : Sy S (M.lift x : M D α) :=
  wp_lift h

theorem Sy.emit {cs : List (Cond D)} : Sy S (M.emit cs) := fun _ _ _ _ => trivial

theorem Sy.log {c : Cond D} : Sy S (M.log c) := fun _ _ _ _ => trivial

theorem Sy.logIf {b : Bool} {c : Cond D} : Sy S (M.logIf b c) := fun _ _ _ _ => trivial

theorem Sy.bool {m : M D Bool} : Sy S m := fun _ _ _ _ => trivial

theorem Sy.number {m : M D (Number D)} : Sy S m := fun _ _ _ _ => trivial

theorem Sy.int {m : M D ℤ} : Sy S m := fun _ _ _ _ => trivial

theorem Sy.nat {m : M D Nat} : Sy S m := fun _ _ _ _ => trivial

theorem Sy.unit {m : M D Unit} : Sy S m := fun _ _ _ _ => trivial

theorem Sy.optNumber {m : M D (Option (Number D))} : Sy S m := fun _ _ _ _ _ _ => trivial

theorem Sy.payload {m : M D (Payload D × Bool)} : Sy S m := fun _ _ _ _ => ⟨trivial, trivial⟩

theorem Sy.silent {m : M D α} (h : Sy S m) : Sy S (M.silent m) := wp_silent h

theorem Sy.capture {m : M D α} (h : Sy S m) : Sy S (M.capture m) :=
  wp_capture fun a cs hm => ⟨h a cs hm fun _ _ => trivial, fun _ _ => trivial⟩

theorem Sy.withinM {m : M D α} {mp : List (Sym × Expr D)} (h : Sy S m) : Sy S (M.withinM mp m) :=
  wp_withinM h

theorem Sy.loop {A R : Type} [HasSyms A] [HasSyms R] {f : A → M D (A ⊕ R)} {n : Nat} {s : A}
    (hs : ws S s) (h : ∀ s, ws S s → Sy S (f s)) : Sy S (M.loop n f s) :=
  wp_loop (I := ws S) (fun s hs => h s hs) n s hs

theorem Sy.mapL {A : Type} {f : A → M D β} {l : List A} (h : ∀ a ∈ l, Sy S (f a)) : Sy S (M.mapL f l) := by
  refine wp_mono (wp_mapL (R := fun _ b => ws S b) h) ?_
  intro r hr
  induction hr with
  | nil => simp
  | cons h1 _ ih =>
    intro x hx
    rcases List.mem_cons.1 hx with rfl | hx
    · exact h1
    · exact ih (fun a ha => h a (by simp [ha])) x hx

theorem Sy.foldL {A : Type} {f : β → A → M D β} {l : List A} {b : β} (hb : ws S b)
    (h : ∀ b, ∀ a ∈ l, ws S b → Sy S (f b a)) : Sy S (M.foldL f b l) := by
  refine wp_mono (wp_foldL (I := fun l' b => (∀ a ∈ l', a ∈ l) ∧ ws S b) ?_ b ⟨fun _ h => h, hb⟩)
    fun _ h => h.2
  intro a l' b ⟨h1, h2⟩
  exact wp_mono (h b a (h1 a (by simp)) h2) fun r hr => ⟨fun x hx => h1 x (by simp [hx]), hr⟩

end

/-- A symbol map as Base::normal builds it: every temporary symbol is new with respect to the symbols
in `S` and to the earlier entries, and stands for an expression with symbols from `S` and earlier
symbols of the map. -/
inductive Chain (S : Sym → Prop) : List (Expr D × Sym) → Prop
  | nil : Chain S []
  | cons {e : Expr D} {t : Sym} {l : List (Expr D × Sym)} : Chain S l →
      Within (fun s => S s ∨ s ∈ l.map Prod.snd) e → ¬ S t → t ∉ l.map Prod.snd →
      Chain S ((e, t) :: l)

/-- A symbol of the map or one from `S`. -/
def SMap.S (S : Sym → Prop) (m : SMap D) : Sym → Prop := fun s => S s ∨ s ∈ m.entries.map Prod.snd

/-- The map is in order, and temporary symbols that satisfy `S` are avoided. -/
def SMap.Ok (S : Sym → Prop) (m : SMap D) : Prop :=
  Chain S m.entries ∧ ∀ s, S s → ∀ k ∈ s.tmpId, k ∈ m.avoid

/-- `m'` is `m` with further entries. -/
def SMap.Ext (m m' : SMap D) : Prop := (∃ l, m'.entries = l ++ m.entries) ∧ m'.avoid = m.avoid

/-- Powers of symbols, and products and powers of these, with exponents whose symbols satisfy `S`. The bases may be
any symbols. -/
inductive Tame (S : Sym → Prop) : Expr D → Prop
  | undef : Tame S .undef
  | sym (t : Sym) : Tame S (.sym t)
  | pow {b e : Expr D} : Tame S b → Within S e → Tame S (.pow b e)
  | prod {l : List (Expr D)} : (∀ x ∈ l, Tame S x) → Tame S (.prod l)

/-- One of these expressions, or one. -/
def Tame1 (S : Sym → Prop) (e : Expr D) : Prop := e = Expr.one ∨ Tame S e

/-- Factors from this class, or the only factor is one. -/
def TameL (S : Sym → Prop) (l : List (Expr D)) : Prop := l = [Expr.one] ∨ ∀ x ∈ l, Tame S x

/-- What the functions of the library do to symbols: no new ones appear. Symbols in bases do not move to exponents. -/
structure Syms (E : Eng D) : Prop where
  ok : E.cfg.Ok
  sum : ∀ {S l}, ws S l → Sy S (E.sumCreate l)
  prod : ∀ {S l}, ws S l → Sy S (E.prodCreate l)
  pow : ∀ {S b e}, Within S b → Within S e → Sy S (E.powCreate b e)
  log : ∀ {S a}, Within S a → Sy S (E.logCreate a)
  trig : ∀ {S f a}, Within S a → Sy S (E.trigCreate f a)
  atan2 : ∀ {S y x}, Within S y → Within S x → Sy S (E.atan2Create y x)
  expand : ∀ {S a}, Within S a → Sy S (E.expand a)
  expandAsProduct : ∀ {S l}, ws S l → Sy S (E.expandAsProduct l)
  subst : ∀ {S x r e}, Within S r → Within S e → Sy S (E.subst x r e)
  /-- a symbol that is replaced does not occur in the result, and a symbol that does not occur is
  not replaced -/
  substSym : ∀ {S t r e}, Within (fun s => S s ∨ s = t) e → (Occurs (.sym t) e → Within S r) →
    Sy S (E.subst (.sym t) r e)
  normal : ∀ {S a}, Within S a → Sy S (E.normal a)
  normalFrac : ∀ {S a m}, m.Ok S → Within S a → wp (fun _ => True) (E.normalFrac a m) fun r =>
    r.2.Ok S ∧ m.Ext r.2 ∧ ws (r.2.S S) r.1
  coeff : ∀ {S x n a}, Within S a → Sy S (E.coeff x n a)
  simplSum : ∀ {S l}, ws S l → Sy S (E.simplSum l)
  sumSimplify : ∀ {S l}, ws S l → Sy S (E.sumSimplify l)
  mergeSum : ∀ {S l m}, ws S l → ws S m → Sy S (E.mergeSum l m)
  simplProd : ∀ {S l}, ws S l → Sy S (E.simplProd l)
  prodSimplify : ∀ {S l}, ws S l → Sy S (E.prodSimplify l)
  mergeProd : ∀ {S l m}, ws S l → ws S m → Sy S (E.mergeProd l m)
  simplPow : ∀ {S b e}, Within S b → Within S e → Sy S (E.simplPow b e)
  divideL : ∀ {S u v L}, Within S u → Within S v → ws S L → Sy S (E.divideL u v L)
  gcdL : ∀ {S u v L}, Within S u → Within S v → ws S L → Sy S (E.gcdL u v L)
  divide : ∀ {S u v}, Within S u → Within S v → Sy S (E.divide u v)
  gcd : ∀ {S u v}, Within S u → Within S v → Sy S (E.gcd u v)
  diff : ∀ {S x a}, Within S a → Sy S (E.diff x a)
  tamePow : ∀ {S b e}, Tame1 S b → Within S e → wp (fun _ => True) (E.powCreate b e) (Tame1 S)
  tameProd : ∀ {S l}, (∀ x ∈ l, Tame1 S x) → wp (fun _ => True) (E.prodCreate l) (Tame1 S)
  tameProdSimplify : ∀ {S l}, (∀ x ∈ l, Tame1 S x) → wp (fun _ => True) (E.prodSimplify l) (TameL S)
  tameSimplProd : ∀ {S l}, (∀ x ∈ l, Tame1 S x) → wp (fun _ => True) (E.simplProd l) (TameL S)
  tameMerge : ∀ {S l m}, (∀ x ∈ l, Tame S x) → (∀ x ∈ m, Tame S x) →
    wp (fun _ => True) (E.mergeProd l m) fun r => ∀ x ∈ r, Tame S x
  tameMerge1 : ∀ {S l m}, TameL S l → TameL S m → wp (fun _ => True) (E.mergeProd l m) (TameL S)
  tameSimplPow : ∀ {S b e}, Tame S b → Within S e →
    wp (fun _ => True) (E.simplPow b e) fun r => Tame1 S r.1 ∧ Within S r.2
  tameNeg : ∀ {S b}, Tame S b → wp (fun _ => True) (E.isNeg b) fun r => r = false

/-- Rules for `Sy`, extended below. -/
syntax "sy_rule" : tactic

macro_rules | `(tactic| sy_rule) => `(tactic| with_reducible apply Syms.sum (by assumption))
macro_rules | `(tactic| sy_rule) => `(tactic| with_reducible apply Syms.prod (by assumption))
macro_rules | `(tactic| sy_rule) => `(tactic| with_reducible apply Syms.pow (by assumption))
macro_rules | `(tactic| sy_rule) => `(tactic| with_reducible apply Syms.log (by assumption))
macro_rules | `(tactic| sy_rule) => `(tactic| with_reducible apply Syms.trig (by assumption))
macro_rules | `(tactic| sy_rule) => `(tactic| with_reducible apply Syms.atan2 (by assumption))
macro_rules | `(tactic| sy_rule) => `(tactic| with_reducible apply Syms.expand (by assumption))
macro_rules | `(tactic| sy_rule) => `(tactic| with_reducible apply Syms.expandAsProduct (by assumption))
macro_rules | `(tactic| sy_rule) => `(tactic| with_reducible apply Syms.subst (by assumption))
macro_rules | `(tactic| sy_rule) => `(tactic| with_reducible apply Syms.normal (by assumption))
macro_rules | `(tactic| sy_rule) => `(tactic| with_reducible apply Syms.coeff (by assumption))
macro_rules | `(tactic| sy_rule) => `(tactic| with_reducible apply Syms.simplSum (by assumption))
macro_rules | `(tactic| sy_rule) => `(tactic| with_reducible apply Syms.mergeSum (by assumption))
macro_rules | `(tactic| sy_rule) => `(tactic| with_reducible apply Syms.simplProd (by assumption))
macro_rules | `(tactic| sy_rule) => `(tactic| with_reducible apply Syms.mergeProd (by assumption))
macro_rules | `(tactic| sy_rule) => `(tactic| with_reducible apply Syms.simplPow (by assumption))
macro_rules | `(tactic| sy_rule) => `(tactic| with_reducible apply Syms.divideL (by assumption))
macro_rules | `(tactic| sy_rule) => `(tactic| with_reducible apply Syms.gcdL (by assumption))
macro_rules | `(tactic| sy_rule) => `(tactic| with_reducible apply Syms.diff (by assumption))
macro_rules | `(tactic| sy_rule) => `(tactic| with_reducible apply Syms.sumSimplify (by assumption))
macro_rules | `(tactic| sy_rule) => `(tactic| with_reducible apply Syms.prodSimplify (by assumption))
macro_rules | `(tactic| sy_rule) => `(tactic| with_reducible apply Syms.divide (by assumption))
macro_rules | `(tactic| sy_rule) => `(tactic| with_reducible apply Syms.gcd (by assumption))

/-- One step. -/
macro "sy_step" : tactic => `(tactic| with_reducible first
  | assumption
  | exact Sy.bool | exact Sy.number | exact Sy.int | exact Sy.nat | exact Sy.unit
  | exact Sy.optNumber | exact Sy.payload | exact Sy.err
  | (refine Sy.bind ?_ ?_; rotate_left; intro _ _; rotate_right)
  | refine Sy.pure ?_
  | refine Sy.silent ?_ | refine Sy.capture ?_ | refine Sy.withinM ?_
  | (refine Sy.mapL ?_; intro _ _)
  | (refine Sy.foldL ?_ ?_; rotate_left; intro _ _ _ _; rotate_right)
  | (refine Sy.loop ?_ ?_; rotate_left; intro _ _; rotate_right)
  | sy_rule
  | split)

/-- Close what is left. -/
macro "sy_side" : tactic => `(tactic| simp_all [within_base, within_exp, or_imp, forall_and])

macro "sy" : tactic => `(tactic| (repeat' sy_step) <;> (try sy_side))

end Tsym

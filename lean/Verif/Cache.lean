import Verif.Mono
import Verif.ExprThm
import Verif.Props.Symbols

set_option autoImplicit false
set_option linter.unusedSectionVars false

/-!
# The caches of the library

Six functions keep their results in a hash map that lives as long as the program (cache.h:17-40).
A call looks for its arguments with the comparison `EqualTo` of the map, which is the equality test
of the library. If there is an entry, its value is the result, otherwise the result is computed and
inserted.

The model says for every call which entry it finds: `look` assigns values to the keys that are found
while a call runs, and `Look.From` says that each of these values is in the cache under a key that is
equal for the map. The calls that find nothing are computed, with the same caches. Which of several
equal entries a multimap returns is not fixed by the code and not fixed here. In one run of a call of
the library the same key is always answered in the same way.
-/

namespace Tsym

open Expr

variable {D : Type}

/-- The keys of the six caches: Base::normalViaCache (base.cpp:147-157), simplifySum
(sumsimpl.cpp:238-249), simplifyProduct with the option maxPrimeResolution (productsimpl.cpp:607-629),
poly::divide (poly.cpp:211-223), poly::gcd (poly.cpp:268-278), expandAsProduct
(baseptrlistfct.cpp:153-179). -/
inductive CKey (D : Type) where
  | normal (e : Expr D)
  | sum (l : List (Expr D))
  | prod (l : List (Expr D)) (limit : ℤ)
  | divide (u v : Expr D)
  | gcd (u v : Expr D)
  | expand (l : List (Expr D))

/-- The values in the caches. -/
inductive CVal (D : Type) where
  | expr (e : Expr D)
  | list (l : List (Expr D))
  | pair (p : Expr D × Expr D)

variable [Flt D]

namespace CKey

/-- The expressions in a key. -/
def exprs : CKey D → List (Expr D)
  | normal e => [e]
  | sum l => l
  | prod l _ => l
  | divide u v => [u, v]
  | gcd u v => [u, v]
  | expand l => l

/-- The comparison of the maps: std::equal_to for BasePtr and BasePtrList (baseptr.h and
baseptrlist.h: isEqual and areEqual), CacheEqualTo (productsimpl.cpp:610-616). -/
def same : CKey D → CKey D → Bool
  | normal e, normal f => isEqual e f
  | sum l, sum m => areEqual l m
  | prod l i, prod m j => areEqual l m && decide (i = j)
  | divide u v, divide x y => areEqual [u, v] [x, y]
  | gcd u v, gcd x y => areEqual [u, v] [x, y]
  | expand l, expand m => areEqual l m
  | _, _ => false

/-- The computation of a value that is not in the cache. -/
def compute (E : Eng D) : CKey D → M D (CVal D)
  | normal e => do
    let r ← Tsym.normal E e
    pure (.expr r)
  | sum l => do
    let r ← simplSum E l
    pure (.list r)
  | prod l _ => do
    let r ← simplProd E l
    pure (.list r)
  | divide u v => do
    let r ← polyDivide E u v
    pure (.pair r)
  | gcd u v => do
    let r ← polyGcd E u v
    pure (.expr r)
  | expand l => do
    let r ← expandAsProduct E l
    pure (.expr r)

end CKey

/-- What the calls find in the caches. The conditions that have been recorded for a value belong to
it. -/
abbrev Look (D : Type) := CKey D → Option (CVal D × List (Cond D))

/-- A call of a function with a cache. -/
def cached {α : Type} (look : Look D) (k : CKey D) (get : CVal D → Option α) (m : M D α) : M D α :=
  match look k with
  | some (v, cs) => match get v with
    | some a => Except.ok (a, cs)
    | none => m
  | none => m

/-- The stored expression, list or pair: the value type of the caches (cache.h:13-41). -/
def CVal.expr? : CVal D → Option (Expr D) | expr e => some e | _ => none
/-- See `CVal.expr?`. -/
def CVal.list? : CVal D → Option (List (Expr D)) | list l => some l | _ => none
/-- See `CVal.expr?`. -/
def CVal.pair? : CVal D → Option (Expr D × Expr D) | pair p => some p | _ => none

/-- The functions that call the functions of `E`, with caches. Base::normal (base.cpp:139-145) uses
the cache for expressions with operands only. -/
def cachedStep (look : Look D) (E : Eng D) : Eng D :=
  { engStep E with
    normal := fun e =>
      if (operands e).isEmpty then normal E e else cached look (.normal e) CVal.expr? (normal E e)
    sumSimplify := fun l => cached look (.sum l) CVal.list? (simplSum E l)
    prodSimplify := fun l => cached look (.prod l E.cfg.maxPrime) CVal.list? (simplProd E l)
    divide := fun u v => cached look (.divide u v) CVal.pair? (polyDivide E u v)
    gcd := fun u v => cached look (.gcd u v) CVal.expr? (polyGcd E u v)
    expandAsProduct := fun l => cached look (.expand l) CVal.expr? (expandAsProduct E l) }

/-- The functions of the library with caches and at most `n` nested calls. -/
def engC (look : Look D) (cfg : Cfg D) : Nat → Eng D
  | 0 => eng0 cfg
  | n + 1 => cachedStep look (engC look cfg n)

/-- An entry of a cache. -/
structure CEntry (D : Type) where
  key : CKey D
  val : CVal D × List (Cond D)

/-- All values that are found are in the caches, under an equal key. -/
def Look.From (look : Look D) (L : List (CEntry D)) : Prop :=
  ∀ k v, look k = some v → ∃ e ∈ L, e.key.same k = true ∧ e.val = v

/-- The contents of the caches that a program can reach: computed values are inserted, the caches may
be cleared (cache.cpp:24-28; here any entries may go), and the options may change if `change` allows
it (options.cpp:10-21, which leave the caches alone). `P` restricts the keys. The caches are together
in one list, a key says to which one it belongs. -/
inductive Caches (change : Cfg D → Cfg D → Prop) (P : CKey D → Prop) : Cfg D → List (CEntry D) → Prop
  | start (cfg : Cfg D) : Caches change P cfg []
  | insert {cfg : Cfg D} {L : List (CEntry D)} (look : Look D) (n : Nat) (k : CKey D)
      (v : CVal D × List (Cond D)) : Caches change P cfg L → look.From L →
      (∀ k, look k ≠ none → P k) → P k → (∀ l i, k = .prod l i → i = cfg.maxPrime) →
      k.compute (engC look cfg n) = .ok v → Caches change P cfg (⟨k, v⟩ :: L)
  | clear {cfg : Cfg D} {L L' : List (CEntry D)} : Caches change P cfg L → (∀ e ∈ L', e ∈ L) →
      Caches change P cfg L'
  | set {cfg cfg' : Cfg D} {L : List (CEntry D)} : Caches change P cfg L → change cfg cfg' →
      Caches change P cfg' L

/-- A key without floating point numbers. -/
def CKey.NoDbl (k : CKey D) : Prop := ∀ e ∈ k.exprs, ∀ d, ¬ Occurs (.num (.dbl d)) e

/-! ## Proofs -/

section

open Lean.Order

theorem areEqual_imp {l m : List (Expr D)} (ih : ∀ a ∈ l, (∀ d, ¬ Occurs (.num (.dbl d)) a) →
    ∀ b, (∀ d, ¬ Occurs (.num (.dbl d)) b) → isEqual a b = true → a = b)
    (hl : ∀ a ∈ l, ∀ d, ¬ Occurs (.num (.dbl d)) a) (hm : ∀ b ∈ m, ∀ d, ¬ Occurs (.num (.dbl d)) b)
    (h : areEqual l m = true) : l = m := by
  induction l generalizing m with
  | nil => cases m <;> simp_all [areEqual]
  | cons a l ihl =>
    cases m with
    | nil => simp [areEqual] at h
    | cons b m =>
      simp only [areEqual, Bool.and_eq_true] at h
      rw [ih a (by simp) (hl a (by simp)) b (hm b (by simp)) h.1,
        ihl (fun x hx => ih x (by simp [hx])) (fun x hx => hl x (by simp [hx]))
          (fun x hx => hm x (by simp [hx])) h.2]

/-- Without floating point numbers, expressions that are equal for the library are the same. -/
theorem isEqual_imp (a : Expr D) : (∀ d, ¬ Occurs (.num (.dbl d)) a) →
    ∀ b, (∀ d, ¬ Occurs (.num (.dbl d)) b) → isEqual a b = true → a = b := by
  induction a using opInd with
  | h a ih =>
    intro ha b hb h
    have hao : ∀ o ∈ operands a, ∀ d, ¬ Occurs (.num (.dbl d)) o := fun o ho d hd => ha d (.op ho hd)
    have hbo : ∀ o ∈ operands b, ∀ d, ¬ Occurs (.num (.dbl d)) o := fun o ho d hd => hb d (.op ho hd)
    have had : ∀ d, a ≠ .num (.dbl d) := fun d h => ha d (h ▸ .refl)
    have hbd : ∀ d, b ≠ .num (.dbl d) := fun d h => hb d (h ▸ .refl)
    clear ha hb
    cases a <;> cases b <;> simp only [isEqual, Bool.false_eq_true, Bool.and_eq_true,
      decide_eq_true_eq] at h
    case num.num m n =>
      cases m with
      | dbl d => exact absurd rfl (had d)
      | rat p =>
        cases n with
        | dbl d => exact absurd rfl (hbd d)
        | rat q => rw [Number.eqv_rat] at h; simpa using h
    case sym.sym => rw [h]
    case cst.cst => rw [h]
    case sum.sum => exact congrArg _ (areEqual_imp ih hao hbo h)
    case prod.prod => exact congrArg _ (areEqual_imp ih hao hbo h)
    case pow.pow =>
      rw [ih _ (by simp [operands]) (hao _ (by simp [operands])) _ (hbo _ (by simp [operands])) h.1,
        ih _ (by simp [operands]) (hao _ (by simp [operands])) _ (hbo _ (by simp [operands])) h.2]
    case fn.fn =>
      rw [h.1,
        ih _ (by simp [operands]) (hao _ (by simp [operands])) _ (hbo _ (by simp [operands])) h.2]
    case atan2.atan2 =>
      rw [ih _ (by simp [operands]) (hao _ (by simp [operands])) _ (hbo _ (by simp [operands])) h.1,
        ih _ (by simp [operands]) (hao _ (by simp [operands])) _ (hbo _ (by simp [operands])) h.2]

theorem CKey.same_imp {k k' : CKey D} (h : k.NoDbl) (h' : k'.NoDbl) (hs : k.same k' = true) :
    k = k' := by
  have hl : ∀ l m : List (Expr D), (∀ e ∈ l, ∀ d, ¬ Occurs (.num (.dbl d)) e) →
      (∀ e ∈ m, ∀ d, ¬ Occurs (.num (.dbl d)) e) → areEqual l m = true → l = m :=
    fun l m h1 h2 h => areEqual_imp (fun a _ => isEqual_imp a) h1 h2 h
  cases k <;> cases k' <;> simp only [same, Bool.false_eq_true, Bool.and_eq_true,
    decide_eq_true_eq] at hs
  case normal.normal e f => rw [isEqual_imp e (h e (by simp [exprs])) f (h' f (by simp [exprs])) hs]
  case sum.sum => exact congrArg _ (hl _ _ h h' hs)
  case prod.prod l i m j =>
    have : l = m := hl _ _ h h' hs.1
    rw [this, hs.2]
  case divide.divide u v x y =>
    have : [u, v] = [x, y] := hl _ _ h h' hs
    simp only [List.cons.injEq] at this
    rw [this.1, this.2.1]
  case gcd.gcd u v x y =>
    have : [u, v] = [x, y] := hl _ _ h h' hs
    simp only [List.cons.injEq] at this
    rw [this.1, this.2.1]
  case expand.expand => exact congrArg _ (hl _ _ h h' hs)

@[partial_fixpoint_monotone]
theorem CKey.compute_mono (k : CKey D) {γ : Type} [Lean.Order.PartialOrder γ] (F : γ → Eng D)
    (hF : monotone F) : monotone fun x => k.compute (F x) := by
  cases k <;> simp only [CKey.compute] <;> repeat' monotonicity
  all_goals exact hF

theorem compute_ok {α : Type} {m : M D α} {f : α → CVal D} {v : CVal D × List (Cond D)}
    (h : (do let r ← m; pure (f r) : M D (CVal D)) = .ok v) : ∃ a, m = .ok (a, v.2) ∧ v.1 = f a := by
  obtain ⟨v, cs⟩ := v
  obtain ⟨a, c1, c2, h1, h2, rfl⟩ := M.bind_ok.1 h
  cases h2
  exact ⟨a, by simpa using h1, rfl⟩

/-- What the caches contain has been computed without caches, with depth `N`. -/
def CacheGood (cfg : Cfg D) (N : Nat) (L : List (CEntry D)) : Prop :=
  ∀ e ∈ L, e.key.compute (eng cfg N) = .ok e.val

theorem M.ok_of_le {α : Type} {m m' : M D α} {r : α × List (Cond D)} (h : m ⊑ m')
    (hr : m = .ok r) : m' = .ok r := by
  rcases h with h | h
  · rw [h] at hr; cases hr
  · rw [← h, hr]

theorem CacheGood.mono {cfg : Cfg D} {N N' : Nat} {L : List (CEntry D)} (h : CacheGood cfg N L) (hN : N ≤ N') :
    CacheGood cfg N' L :=
  fun e he => M.ok_of_le (CKey.compute_mono e.key id monotone_id _ _ (eng_le cfg hN)) (h e he)

theorem cached_le {α : Type} {look : Look D} {k : CKey D} {get : CVal D → Option α} {m m' : M D α}
    {f : α → CVal D} (hf : ∀ v a, get v = some a → v = f a) (h : m ⊑ m')
    (hk : ∀ v, look k = some v → (do let r ← m'; pure (f r) : M D (CVal D)) = .ok v)
    (hinj : ∀ a b, f a = f b → a = b) :
    cached look k get m ⊑ m' := by
  unfold cached
  split
  · rename_i v cs hv
    split
    · rename_i a ha
      obtain ⟨b, hb, hab⟩ := compute_ok (hk _ hv)
      have := hf _ _ ha
      simp only at hab
      rw [hinj a b (this.symm.trans hab), hb]
      exact .inr rfl
    · exact h
  · exact h

theorem engC_cfg (look : Look D) (cfg : Cfg D) (n : Nat) : (engC look cfg n).cfg = cfg := by
  induction n with
  | zero => rfl
  | succ n ih => exact ih

/-- The library with caches returns what the library without caches returns. -/
theorem engC_le {look : Look D} {cfg : Cfg D} {L : List (CEntry D)} {N : Nat} (hL : CacheGood cfg N L)
    (hlook : ∀ k v, look k = some v → ∃ e ∈ L, e.key = k ∧ e.val = v) (n : Nat) :
    engC look cfg n ⊑ eng cfg (n + N) := by
  induction n with
  | zero =>
    have := eng0_le (eng cfg (0 + N))
    rwa [eng_cfg] at this
  | succ n ih =>
    rw [Nat.succ_add]
    have h := engStep_mono _ _ ih
    have hk : ∀ k v, look k = some v → k.compute (eng cfg (n + N)) = .ok v := by
      intro k v hv
      obtain ⟨e, he, rfl, rfl⟩ := hlook k v hv
      exact hL.mono (Nat.le_add_left N n) e he
    show cachedStep look (engC look cfg n) ⊑ engStep (eng cfg (n + N))
    have h1 : (cachedStep look (engC look cfg n)).normal ⊑ (engStep (eng cfg (n + N))).normal := by
      intro e
      simp only [cachedStep]
      split
      · exact h.normal e
      · exact cached_le (f := .expr) (by rintro (_ | _ | _) a ⟨⟩; rfl) (h.normal e)
          (fun v hv => hk _ v hv) (by rintro a b ⟨⟩; rfl)
    exact { h with
      normal := h1
      sumSimplify := fun l => cached_le (f := .list) (by rintro (_ | _ | _) a ⟨⟩; rfl) (h.sumSimplify l)
        (fun v hv => hk _ v hv) (by rintro a b ⟨⟩; rfl)
      prodSimplify := fun l => cached_le (f := .list) (by rintro (_ | _ | _) a ⟨⟩; rfl)
        (h.prodSimplify l) (fun v hv => hk _ v hv) (by rintro a b ⟨⟩; rfl)
      divide := fun u v => cached_le (f := .pair) (by rintro (_ | _ | _) a ⟨⟩; rfl) (h.divide u v)
        (fun v hv => hk _ v hv) (by rintro a b ⟨⟩; rfl)
      gcd := fun u v => cached_le (f := .expr) (by rintro (_ | _ | _) a ⟨⟩; rfl) (h.gcd u v)
        (fun v hv => hk _ v hv) (by rintro a b ⟨⟩; rfl)
      expandAsProduct := fun l => cached_le (f := .expr) (by rintro (_ | _ | _) a ⟨⟩; rfl)
        (h.expandAsProduct l) (fun v hv => hk _ v hv) (by rintro a b ⟨⟩; rfl) }

/-- The keys of all entries are as required. -/
theorem Caches.keys {change : Cfg D → Cfg D → Prop} {P : CKey D → Prop} {cfg : Cfg D}
    {L : List (CEntry D)} (h : Caches change P cfg L) : ∀ e ∈ L, P e.key := by
  induction h with
  | start => simp
  | insert look n k v _ _ _ hk _ _ ih =>
    intro e he
    rcases List.mem_cons.1 he with rfl | he
    · exact hk
    · exact ih e he
  | clear _ hs ih => exact fun e he => ih e (hs e he)
  | set _ _ ih => exact ih

theorem look_exact {look : Look D} {L : List (CEntry D)} (hL : ∀ e ∈ L, e.key.NoDbl)
    (hlook : look.From L) (hP : ∀ k, look k ≠ none → k.NoDbl) :
    ∀ k v, look k = some v → ∃ e ∈ L, e.key = k ∧ e.val = v := by
  intro k v hv
  obtain ⟨e, he, hs, rfl⟩ := hlook k v hv
  exact ⟨e, he, CKey.same_imp (hL e he) (hP k (by simp [hv])) hs, rfl⟩

/-- The caches contain what is computed without caches, if the options stay and no floating point
numbers are used. -/
theorem Caches.good {cfg : Cfg D} {L : List (CEntry D)}
    (h : Caches (fun _ _ => False) CKey.NoDbl cfg L) : ∃ N, CacheGood cfg N L := by
  induction h with
  | start => exact ⟨0, by simp [CacheGood]⟩
  | @insert cfg L look n k v hL hlook hP hk _ hv ih =>
    obtain ⟨N, hN⟩ := ih
    have := engC_le hN (look_exact hL.keys hlook hP) n
    refine ⟨n + N, fun e he => ?_⟩
    rcases List.mem_cons.1 he with rfl | he
    · exact M.ok_of_le (CKey.compute_mono k id monotone_id _ _ this) hv
    · exact hN.mono (Nat.le_add_left N n) e he
  | clear _ hs ih =>
    obtain ⟨N, hN⟩ := ih
    exact ⟨N, fun e he => hN e (hs e he)⟩
  | set _ h _ => exact h.elim

theorem Call.run_mono (c : Call D) : monotone fun E : Eng D => c.run E := by
  cases c <;> simp only [Call.run] <;> monotonicity <;> monotonicity

end

end Tsym

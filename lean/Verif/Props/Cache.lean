import Verif.Cache
import Verif.Props.Values

set_option autoImplicit false

/-!
# Properties of the caches and of the depth bound: C37, C46
-/

namespace Tsym

open Expr Lean.Order

section

variable {D : Type} [Flt D]

/-- C46. A call has one outcome: with any two bounds for the depth of calls, two runs that do not
stop at the bound have the same outcome, be it an expression, undefined behaviour, an exception or a
failed assertion. -/
theorem C46_one_outcome (cfg : Cfg D) (c : Call D) (n m : Nat) (hn : c.run (eng cfg n) ≠ .error .fuel)
    (hm : c.run (eng cfg m) ≠ .error .fuel) : c.run (eng cfg n) = c.run (eng cfg m) := by
  rcases Nat.le_total n m with h | h
  · exact (Call.run_mono c _ _ (eng_le cfg h)).resolve_left hn
  · exact ((Call.run_mono c _ _ (eng_le cfg h)).resolve_left hm).symm

/-- C37. The caches are invisible: whatever has been computed before, a call that uses the caches has
the same outcome as the call without caches, as long as the options do not change and the keys contain
no floating point numbers. -/
theorem C37_caches_invisible_partial (cfg : Cfg D) (L : List (CEntry D))
    (hL : Caches (fun _ _ => False) CKey.NoDbl cfg L) (look : Look D) (hlook : look.From L)
    (hkeys : ∀ k, look k ≠ none → k.NoDbl) (c : Call D) (n : Nat)
    (hn : c.run (engC look cfg n) ≠ .error .fuel) :
    ∃ N, ∀ m, N ≤ m → c.run (eng cfg m) = c.run (engC look cfg n) := by
  obtain ⟨N, hN⟩ := hL.good
  refine ⟨n + N, fun m hm => ?_⟩
  have h1 := Call.run_mono c _ _ (engC_le hN (look_exact hL.keys hlook hkeys) n)
  have h2 := Call.run_mono c _ _ (eng_le cfg hm)
  have h1 := h1.resolve_left hn
  exact ((h2.resolve_left fun h => hn (h1.trans h)).symm).trans h1.symm

/-- C37: without entries nothing is different, so every call without caches is one with caches. -/
theorem C37_empty (cfg : Cfg D) (n : Nat) : engC (fun _ => none) cfg n = eng cfg n := by
  induction n with
  | zero => rfl
  | succ n ih =>
    show cachedStep _ (engC _ cfg n) = engStep (eng cfg n)
    rw [ih]
    simp only [cachedStep, cached, ite_self]
    rfl

end

namespace CacheEx

open ExprEx SymEx

/-- The library with a small limit for prime numbers, options::setMaxPrimeResolution(2). -/
noncomputable def small : Cfg Hyb := Cfg.std 2

/-- 8^(1/2), as it is created with the small limit. -/
noncomputable def root8 : Expr Hyb := pow (int 8) half

theorem root8_noDbl : (CKey.normal root8).NoDbl := by
  intro e he d h
  rw [List.mem_singleton.1 he] at h
  cases h with
  | op ho h =>
    simp only [root8, operands, List.mem_cons, List.not_mem_nil, or_false] at ho
    rcases ho with rfl | rfl <;> cases h with | op ho _ => simp [half, int, operands] at ho

open Classical in
/-- A call finds 8^(1/2) in the cache of `normal`, and nothing else. -/
noncomputable def look (v : CVal Hyb × List (Cond Hyb)) : Look Hyb :=
  fun k => if k = .normal root8 then some v else none

theorem look_from (v : CVal Hyb × List (Cond Hyb)) : (look v).From [⟨.normal root8, v⟩] := by
  intro k w hw
  unfold look at hw
  split at hw
  · rename_i h
    cases hw
    exact ⟨_, List.mem_singleton.2 rfl, by rw [h]; krfl, rfl⟩
  · cases hw

theorem look_keys (v : CVal Hyb × List (Cond Hyb)) (k : CKey Hyb) (h : look v k ≠ none) : k.NoDbl := by
  unfold look at h
  split at h
  · rename_i hk
    rw [hk]
    exact root8_noDbl
  · exact absurd rfl h

/-- The cache after the first call of normal(8^(1/2)). -/
theorem caches (change : Cfg Hyb → Cfg Hyb → Prop) (cfg : Cfg Hyb) (r : Expr Hyb) (cs : List (Cond Hyb))
    (h : (eng cfg 30).normal root8 = .ok (r, cs)) :
    Caches change CKey.NoDbl cfg [⟨.normal root8, (.expr r, cs)⟩] := by
  refine .insert (fun _ => none) 29 _ _ (.start cfg) (fun _ _ h => by cases h) (fun _ h => absurd rfl h)
    root8_noDbl (fun _ _ h => by cases h) ?_
  rw [C37_empty]
  exact M.bind_ok.2 ⟨r, cs, [], h, rfl, by simp⟩

theorem found (cfg : Cfg Hyb) (r : Expr Hyb) (cs : List (Cond Hyb)) :
    (Call.normal root8).run (engC (look (.expr r, cs)) cfg 30) = .ok (r, cs) := by
  simp [Call.run, engC, cachedStep, cached, look, root8, operands, CVal.expr?]
  rfl

theorem normal_small : ∃ cs, (eng small 30).normal root8 = .ok (root8, cs) := M.val_some (by krfl)

theorem normal_std : ∃ cs, lib.normal root8 = .ok (prod [int 2, pow (int 2) half], cs) :=
  M.val_some (by krfl)

/-- C37 on an example: the second call of normal(8^(1/2)) finds the result of the first one. -/
example : ∃ L look, Caches (fun _ _ => False) CKey.NoDbl (Cfg.std 1000) L ∧ look.From L ∧
    (∀ k, look k ≠ none → k.NoDbl) ∧ look (.normal root8) ≠ none ∧
    (Call.normal root8).run (engC look (Cfg.std 1000) 30) ≠ .error .fuel := by
  obtain ⟨cs, h⟩ := normal_std
  refine ⟨_, look (.expr _, cs), caches _ _ _ cs h, look_from _, look_keys _, by simp [look], ?_⟩
  rw [found]
  exact fun h => by cases h

/-- C37 is false if the options may change: normal(8^(1/2)) is 8^(1/2) with a small limit for prime
numbers. When the limit is raised afterwards, the cache still contains this result, and
normal(8^(1/2)) is not 2*2^(1/2) as it would be without the cache. -/
theorem C37_false : ∃ (L : List (CEntry Hyb)) (look : Look Hyb),
    Caches (fun c c' => c' = { c with maxPrime := c'.maxPrime }) CKey.NoDbl (Cfg.std 1000) L ∧
    look.From L ∧ ∃ r cs cs', (Call.normal root8).run (engC look (Cfg.std 1000) 30) = .ok (root8, cs) ∧
      (Call.normal root8).run (eng (Cfg.std 1000) 30) = .ok (r, cs') ∧ isEqual root8 r = false := by
  obtain ⟨cs, h⟩ := normal_small
  obtain ⟨cs', h'⟩ := normal_std
  refine ⟨_, look (.expr root8, cs), .set (caches _ small _ cs h) rfl, look_from _, _, cs, cs',
    found _ _ _, h', by krfl⟩

/-- C46 on an example: two bounds for the depth. -/
example : (Call.normal root8).run (eng (Cfg.std 1000) 30) ≠ .error .fuel ∧
    (Call.normal root8).run (eng (Cfg.std 1000) 35) ≠ .error .fuel := by
  obtain ⟨cs, h⟩ := normal_std
  have h2 : (Call.normal root8).run (eng (Cfg.std 1000) 30) = .ok (_, cs) := h
  refine ⟨by rw [h2]; exact (fun h => by cases h), ?_⟩
  have h3 : (Call.normal root8).run (eng (Cfg.std 1000) 35) = .ok (_, cs) :=
    M.ok_of_le (Call.run_mono _ _ _ (eng_le _ (by decide : 30 ≤ 35))) h2
  rw [h3]
  exact fun h => by cases h

end CacheEx

end Tsym

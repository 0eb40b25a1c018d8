import Verif.SymPool
import Mathlib.Data.List.Nodup
import Mathlib.Data.List.Perm.Subperm

set_option autoImplicit false

/-!
# Symbol objects: properties C38 and C39

A history is a list of creations and destructions. `SymHeap.init.runAll ops` is the state after it,
with what each call has returned.
-/

namespace Tsym

/-- C39: in every history, two creations of named symbols return the same object exactly if name and
sign are the same, and the object has that name and sign. -/
theorem C39_one_object (ops : List SymOp) {n1 n2 : Name} {p1 p2 : Bool} {o1 o2 : SymObj}
    (h1 : (SymOp.create n1 p1, some o1) ∈ (SymHeap.init.runAll ops).2)
    (h2 : (SymOp.create n2 p2, some o2) ∈ (SymHeap.init.runAll ops).2)
    (hn1 : ¬ ['t', 'm', 'p', '#'] <+: n1.value) (hn2 : ¬ ['t', 'm', 'p', '#'] <+: n2.value) :
    (o1.addr = o2.addr ↔ n1 = n2 ∧ p1 = p2) ∧ o1.name = n1 ∧ o1.positive = p1 ∧
      o1 ∈ (SymHeap.init.runAll ops).1.live := by
  have hi := SymHeap.inv_init.runAll ops
  have ht : ∀ {n : Name}, ¬ ['t', 'm', 'p', '#'] <+: n.value → n.isTmp = false := by
    intro n hn
    cases hh : n.isTmp with
    | false => rfl
    | true => exact absurd (List.isPrefixOf_iff_prefix.1 hh) hn
  have m1 := SymHeap.runAll_create ops (ht hn1) h1
  have m2 := SymHeap.runAll_create ops (ht hn2) h2
  have k1 := (hi.poolKey _ m1).1
  have k2 := (hi.poolKey _ m2).1
  simp only [Prod.mk.injEq] at k1 k2
  refine ⟨⟨fun he => ?_, fun he => ?_⟩, k1.1, k1.2, hi.poolLive _ m1⟩
  · have : o1 = o2 := List.inj_on_of_nodup_map hi.nodup (hi.poolLive _ m1) (hi.poolLive _ m2) he
    subst this
    exact ⟨k1.1.symm.trans k2.1, k1.2.symm.trans k2.2⟩
  · obtain ⟨rfl, rfl⟩ := he
    have : (((n1, p1), o1) : (Name × Bool) × SymObj) = ((n1, p1), o2) :=
      List.inj_on_of_nodup_map hi.poolNodup m1 m2 rfl
    simp only [Prod.mk.injEq, true_and] at this
    rw [this]

/-- C39: a creation with a name that is not empty returns an object, in every state. -/
theorem C39_returns (h : SymHeap) {n : Name} (p : Bool) (hn : n.value ≠ []) :
    ∃ o, ((SymOp.create n p).run h).2 = some o := by
  simp only [SymOp.run, SymHeap.create]
  rw [if_neg (by simpa using hn)]
  split <;> exact ⟨_, rfl⟩

/-- C38, as far as it holds: in every history, an existing temporary symbol has another name than an
older one, if everything that existed at the creation of the older one still existed at the creation
of the younger one. Missing: the case in which a symbol older than both has been destroyed in between
(`SymbolEx.C38_false`). -/
theorem C38_different_partial (ops : List SymOp) {s t : SymObj}
    (hs : s ∈ (SymHeap.init.runAll ops).1.live) (ht : t ∈ (SymHeap.init.runAll ops).1.live)
    (hst : ['t', 'm', 'p', '#'] <+: s.name.value) (htt : ['t', 'm', 'p', '#'] <+: t.name.value)
    (hlt : s.addr < t.addr) (hkept : ∀ x ∈ s.others, x ∈ t.others)
    (hsize : t.others.length < 2 ^ 32 - 1) : s.name ≠ t.name := by
  have hi := SymHeap.inv_init.runAll ops
  have hs' := SymHeap.mem_tmps.2 ⟨hs, List.isPrefixOf_iff_prefix.2 hst⟩
  have ht' := SymHeap.mem_tmps.2 ⟨ht, List.isPrefixOf_iff_prefix.2 htt⟩
  have hnm : s.addr ∉ s.others := fun hm => Nat.lt_irrefl _ (hi.younger s hs' _ hm)
  have hsub : s.addr :: s.others ⊆ t.others :=
    List.cons_subset.2 ⟨hi.others s hs' t ht' hlt, hkept⟩
  have hlen := List.Subperm.length_le
    (List.Nodup.subperm (List.nodup_cons.2 ⟨hnm, hi.othersNodup s hs'⟩) hsub)
  rw [List.length_cons] at hlen
  intro he
  rw [hi.named s hs', hi.named t ht'] at he
  have := tmpName_inj he
  omega

/-- A history in which only the youngest existing temporary symbol is destroyed, as with nested
scopes. -/
def NestedScopes (h : SymHeap) : List SymOp → Prop
  | [] => True
  | .destroy o :: ops =>
    (∀ u ∈ h.live, ['t', 'm', 'p', '#'] <+: u.name.value → u.addr ≤ o.addr) ∧
      NestedScopes (SymOp.run h (.destroy o)).1 ops
  | .create n p :: ops => NestedScopes (SymOp.run h (.create n p)).1 ops
  | .createTmp p :: ops => NestedScopes (SymOp.run h (.createTmp p)).1 ops

theorem nested_kept {h : SymHeap} (hi : h.Inv) (ops : List SymOp)
    (hk : ∀ o ∈ h.tmps, ∀ x ∈ o.others, ∃ u ∈ h.tmps, u.addr = x) (hn : NestedScopes h ops) :
    ∀ o ∈ (h.runAll ops).1.tmps, ∀ x ∈ o.others, ∃ u ∈ (h.runAll ops).1.tmps, u.addr = x := by
  have htmp : ∀ (h : SymHeap) (p : Bool), (∀ o ∈ h.tmps, ∀ x ∈ o.others, ∃ u ∈ h.tmps, u.addr = x) →
      ∀ o ∈ (h.createTmp p).1.tmps, ∀ x ∈ o.others, ∃ u ∈ (h.createTmp p).1.tmps, u.addr = x := by
    intro h p hk
    have ht : (h.createTmp p).1.tmps = (h.createTmp p).2 :: h.tmps := by
      simp [SymHeap.createTmp, SymHeap.tmps, tmpName_isTmp]
    rw [ht]
    intro o ho x hx
    rcases List.mem_cons.1 ho with rfl | ho
    · obtain ⟨u, hu, rfl⟩ := List.mem_map.1 hx
      exact ⟨u, List.mem_cons_of_mem _ hu, rfl⟩
    · obtain ⟨u, hu, rfl⟩ := hk o ho x hx
      exact ⟨u, List.mem_cons_of_mem _ hu, rfl⟩
  induction ops generalizing h with
  | nil => exact hk
  | cons op ops ih =>
    cases op with
    | create n p =>
      refine ih (hi.run _) ?_ hn
      simp only [SymOp.run, SymHeap.create]
      split
      · exact hk
      · split
        · exact htmp h p hk
        · rename_i hnt
          unfold SymHeap.createNonEmptyName
          split
          · exact hk
          · simpa [SymHeap.tmps, hnt] using hk
    | createTmp p => exact ih (hi.run _) (htmp h p hk) hn
    | destroy d =>
      refine ih (hi.run _) ?_ hn.2
      simp only [SymOp.run, SymHeap.destroy]
      split
      · intro o ho x hx
        obtain ⟨h1, h2⟩ := SymHeap.mem_tmps.1 ho
        have ho' := SymHeap.mem_tmps.2 ⟨List.mem_of_mem_erase h1, h2⟩
        obtain ⟨u, hu, rfl⟩ := hk o ho' x hx
        have hlt := (hi.younger o ho' _ hx).trans_le
          (hn.1 o (List.mem_of_mem_erase h1) (List.isPrefixOf_iff_prefix.1 h2))
        obtain ⟨h3, h4⟩ := SymHeap.mem_tmps.1 hu
        refine ⟨u, SymHeap.mem_tmps.2 ⟨(List.mem_erase_of_ne ?_).2 h3, h4⟩, rfl⟩
        rintro rfl
        exact Nat.lt_irrefl _ hlt
      · exact hk

/-- C38, for nested scopes: all existing temporary symbols have different names. -/
theorem C38_nested_partial (ops : List SymOp) {s t : SymObj}
    (hscopes : NestedScopes SymHeap.init ops)
    (hs : s ∈ (SymHeap.init.runAll ops).1.live) (ht : t ∈ (SymHeap.init.runAll ops).1.live)
    (hst : ['t', 'm', 'p', '#'] <+: s.name.value) (htt : ['t', 'm', 'p', '#'] <+: t.name.value)
    (hsize : (SymHeap.init.runAll ops).1.live.length < 2 ^ 32)
    (hname : s.name = t.name) : s = t := by
  have hnest := nested_kept SymHeap.inv_init ops (by simp [SymHeap.init, SymHeap.tmps]) hscopes
  have hi := SymHeap.inv_init.runAll ops
  have key : ∀ {a b : SymObj}, a ∈ (SymHeap.init.runAll ops).1.live →
      b ∈ (SymHeap.init.runAll ops).1.live → ['t', 'm', 'p', '#'] <+: a.name.value →
      ['t', 'm', 'p', '#'] <+: b.name.value → a.addr < b.addr → a.name ≠ b.name := by
    intro a b ha hb hat hbt hlt
    have ha' := SymHeap.mem_tmps.2 ⟨ha, List.isPrefixOf_iff_prefix.2 hat⟩
    have hb' := SymHeap.mem_tmps.2 ⟨hb, List.isPrefixOf_iff_prefix.2 hbt⟩
    refine C38_different_partial ops ha hb hat hbt hlt ?_ ?_
    · intro x hx
      obtain ⟨u, hu, rfl⟩ := hnest a ha' x hx
      exact hi.others u hu b hb'
        ((hi.younger a ha' _ hx).trans hlt)
    · have hnm : b.addr ∉ b.others := fun hm => Nat.lt_irrefl _ (hi.younger b hb' _ hm)
      have hsub : b.addr :: b.others ⊆ (SymHeap.init.runAll ops).1.live.map SymObj.addr := by
        refine List.cons_subset.2 ⟨List.mem_map_of_mem hb, fun x hx => ?_⟩
        obtain ⟨u, hu, rfl⟩ := hnest b hb' x hx
        exact List.mem_map_of_mem (SymHeap.mem_tmps.1 hu).1
      have hlen := List.Subperm.length_le
        (List.Nodup.subperm (List.nodup_cons.2 ⟨hnm, hi.othersNodup b hb'⟩) hsub)
      rw [List.length_cons, List.length_map] at hlen
      omega
  rcases Nat.lt_trichotomy s.addr t.addr with hlt | heq | hlt
  · exact absurd hname (key hs ht hst htt hlt)
  · exact List.inj_on_of_nodup_map hi.nodup hs ht heq
  · exact absurd hname.symm (key ht hs htt hst hlt)

namespace SymbolEx

/-- The first temporary symbol. -/
def t0 : SymObj := ⟨0, tmpName 1, false, []⟩
/-- The second one. -/
def t1 : SymObj := ⟨1, tmpName 2, false, [0]⟩
/-- The third one, after the first one has been destroyed. -/
def t2 : SymObj := ⟨2, tmpName 2, false, [1]⟩

/-- Two temporary symbols are created, the first is destroyed, and a third is created. -/
def history : List SymOp := [.createTmp false, .createTmp false, .destroy t0, .createTmp false]

/-- C38 is false: after `history`, two temporary symbols exist that have the same name and the same
sign, so that the library takes them for equal (symbol.cpp:100-106). -/
theorem C38_false : t1 ∈ (SymHeap.init.runAll history).1.live ∧ t2 ∈ (SymHeap.init.runAll history).1.live ∧
    t1.addr ≠ t2.addr ∧ t1.name = t2.name ∧ t1.positive = t2.positive := by
  decide +kernel

/-- C38 is false for the user's variables as well: a variable whose name begins with the prefix is a
temporary symbol, so that two different variables are equal. -/
theorem C38_false_variables :
    ((SymHeap.init.runAll [.create ⟨"tmp#a".toList, [], []⟩ false, .create ⟨"tmp#b".toList, [], []⟩ false,
      .destroy t0, .create ⟨"tmp#c".toList, [], []⟩ false]).2.map fun r => r.2.map SymObj.name) =
      [some (tmpName 1), some (tmpName 2), none, some (tmpName 2)] := by
  decide +kernel

/-- A name. -/
def a : Name := ⟨['a'], [], []⟩

/-- A history in which both theorems apply: a named symbol, two temporary symbols, the second one
destroyed, another one created, and the named symbol again, with both signs. -/
def nested : List SymOp :=
  [.create a false, .createTmp false, .createTmp true, .destroy ⟨2, tmpName 2, true, [1]⟩,
    .createTmp true, .create a false, .create a true]

example : ((SymHeap.init.runAll nested).2.map fun r => r.2.map SymObj.addr) =
    [some 0, some 1, some 2, none, some 3, some 0, some 4] := by decide +kernel

example : NestedScopes SymHeap.init nested := by
  refine ⟨?_, trivial⟩
  decide +kernel

example : ⟨1, tmpName 1, false, []⟩ ∈ (SymHeap.init.runAll nested).1.live ∧
    ⟨3, tmpName 2, true, [1]⟩ ∈ (SymHeap.init.runAll nested).1.live := by decide +kernel

example : (.create a false, some ⟨0, a, false, []⟩) ∈ (SymHeap.init.runAll nested).2 ∧
    (.create a true, some ⟨4, a, true, []⟩) ∈ (SymHeap.init.runAll nested).2 ∧
    ¬ ['t', 'm', 'p', '#'] <+: a.value := by
  decide +kernel

end SymbolEx

end Tsym

import Verif.OrderThm

set_option autoImplicit false

/-!
# The symbol objects of a program

Symbol::create keeps one object for each name and sign in a pool that lives as long as the program.
Temporary symbols are not in the pool. They get a number from a counter, which their destructor
decrements (symbol.cpp:14, 24-36).
-/

namespace Tsym

/-- The name of a temporary symbol (symbol.cpp:24-30). -/
def tmpName (k : Nat) : Name := (SymId.tmp k).name

/-- `name.value.find(tmpSymbolNamePrefix) == 0` (symbol.cpp:34, 53). -/
def Name.isTmp (n : Name) : Bool := tmpPrefix.isPrefixOf n.value

/-- A symbol object. `addr` numbers the objects in the order of their creation, in place of the
address. `others` are the temporary symbols that existed when a temporary symbol has been created;
this is not in the code. -/
structure SymObj where
  addr : Nat
  name : Name
  positive : Bool
  others : List Nat
  deriving DecidableEq

/-- The state: the pool (symbol.cpp:66), the existing objects, Symbol::tmpCounter and the number of the
next object. -/
structure SymHeap where
  pool : List ((Name × Bool) × SymObj)
  live : List SymObj
  counter : Nat
  next : Nat

namespace SymHeap

/-- The state at the start of the program. -/
def init : SymHeap := ⟨[], [], 0, 0⟩

/-- The existing temporary symbols. -/
def tmps (h : SymHeap) : List SymObj := h.live.filter fun o => o.name.isTmp

/-- Symbol::createTmpSymbol (symbol.cpp:85-90); `tmpCounter` is an unsigned integer of 32 bits. -/
def createTmp (h : SymHeap) (positive : Bool) : SymHeap × SymObj :=
  let c := (h.counter + 1) % 2 ^ 32
  let o : SymObj := ⟨h.next, tmpName c, positive, h.tmps.map SymObj.addr⟩
  ({ h with live := o :: h.live, counter := c, next := h.next + 1 }, o)

/-- Symbol::createNonEmptyName (symbol.cpp:63-73). -/
def createNonEmptyName (h : SymHeap) (name : Name) (positive : Bool) : SymHeap × SymObj :=
  match h.pool.find? fun p => decide (p.1 = (name, positive)) with
  | some p => (h, p.2)
  | none =>
    let o : SymObj := ⟨h.next, name, positive, []⟩
    ({ h with pool := ((name, positive), o) :: h.pool, live := o :: h.live, next := h.next + 1 }, o)

/-- Symbol::create (symbol.cpp:38-61) and Symbol::createPositive (symbol.cpp:75-83). No object stands
for Undefined. -/
def create (h : SymHeap) (name : Name) (positive : Bool) : SymHeap × Option SymObj :=
  if name.value.isEmpty then (h, none)
  else if name.isTmp then
    let r := h.createTmp positive
    (r.1, some r.2)
  else
    let r := h.createNonEmptyName name positive
    (r.1, some r.2)

/-- Symbol::~Symbol (symbol.cpp:32-36), for an object that exists and that is not in the pool. -/
def destroy (h : SymHeap) (o : SymObj) : SymHeap :=
  if o ∈ h.live ∧ ∀ p ∈ h.pool, p.2 ≠ o then
    { h with live := h.live.erase o
             counter := if o.name.isTmp then (h.counter + (2 ^ 32 - 1)) % 2 ^ 32 else h.counter }
  else h

end SymHeap

/-- What a program does with symbols. -/
inductive SymOp where
  | create (name : Name) (positive : Bool)
  | createTmp (positive : Bool)
  | destroy (o : SymObj)
  deriving DecidableEq

/-- One step, with the object that the call returns. -/
def SymOp.run (h : SymHeap) : SymOp → SymHeap × Option SymObj
  | create name positive => h.create name positive
  | createTmp positive => ((h.createTmp positive).1, some (h.createTmp positive).2)
  | destroy o => (h.destroy o, none)

/-- The calls of a program, in order, with what they return. -/
def SymHeap.runAll (h : SymHeap) : List SymOp → SymHeap × List (SymOp × Option SymObj)
  | [] => (h, [])
  | op :: ops =>
    let r := op.run h
    let s := r.1.runAll ops
    (s.1, (op, r.2) :: s.2)

/-! ## Invariants -/

theorem tmpName_isTmp (k : Nat) : (tmpName k).isTmp = true := by
  simp only [Name.isTmp, tmpName, SymId.name, List.isPrefixOf_iff_prefix]
  exact ⟨_, rfl⟩

theorem tmpName_inj {i j : Nat} (h : tmpName i = tmpName j) : i = j := by
  simp only [tmpName, SymId.name, Name.mk.injEq, List.append_cancel_left_eq, and_true] at h
  exact natStr_inj h

namespace SymHeap

/-- The invariant of all states. -/
structure Inv (h : SymHeap) : Prop where
  nodup : (h.live.map SymObj.addr).Nodup
  fresh : ∀ o ∈ h.live, o.addr < h.next
  poolLive : ∀ p ∈ h.pool, p.2 ∈ h.live
  poolKey : ∀ p ∈ h.pool, (p.2.name, p.2.positive) = p.1 ∧ p.1.1.isTmp = false
  poolNodup : (h.pool.map Prod.fst).Nodup
  counter : h.counter = h.tmps.length % 2 ^ 32
  named : ∀ o ∈ h.tmps, o.name = tmpName ((o.others.length + 1) % 2 ^ 32)
  othersNodup : ∀ o ∈ h.tmps, o.others.Nodup
  others : ∀ s ∈ h.tmps, ∀ t ∈ h.tmps, s.addr < t.addr → s.addr ∈ t.others
  younger : ∀ o ∈ h.tmps, ∀ x ∈ o.others, x < o.addr

theorem inv_init : init.Inv := by
  constructor <;> simp [init, tmps]

theorem mem_tmps {h : SymHeap} {o : SymObj} : o ∈ h.tmps ↔ o ∈ h.live ∧ o.name.isTmp = true := by
  simp [tmps]

theorem Inv.createTmp {h : SymHeap} (hi : h.Inv) (p : Bool) : (h.createTmp p).1.Inv := by
  have ht : (h.createTmp p).1.tmps = (h.createTmp p).2 :: h.tmps := by
    simp [SymHeap.createTmp, tmps, tmpName_isTmp]
  have hc : (h.counter + 1) % 2 ^ 32 = (h.tmps.length + 1) % 2 ^ 32 := by
    rw [hi.counter, Nat.add_mod, Nat.mod_mod, ← Nat.add_mod]
  constructor
  · simp only [SymHeap.createTmp, List.map_cons, List.nodup_cons]
    refine ⟨fun hm => ?_, hi.nodup⟩
    obtain ⟨o, ho, hoe⟩ := List.mem_map.1 hm
    exact absurd hoe (Nat.ne_of_lt (hi.fresh o ho))
  · intro o ho
    simp only [SymHeap.createTmp, List.mem_cons] at ho ⊢
    rcases ho with rfl | ho
    · exact Nat.lt_succ_self _
    · exact Nat.lt_succ_of_lt (hi.fresh o ho)
  · exact fun q hq => List.mem_cons_of_mem _ (hi.poolLive q hq)
  · exact hi.poolKey
  · exact hi.poolNodup
  · rw [ht, List.length_cons]
    exact hc
  · rw [ht]
    intro o ho
    rcases List.mem_cons.1 ho with rfl | ho
    · simp only [SymHeap.createTmp, List.length_map, hc]
    · exact hi.named o ho
  · rw [ht]
    intro o ho
    rcases List.mem_cons.1 ho with rfl | ho
    · exact (List.filter_sublist.map _).nodup hi.nodup
    · exact hi.othersNodup o ho
  · rw [ht]
    intro s hs t ht' hlt
    rcases List.mem_cons.1 ht' with rfl | ht'
    · rcases List.mem_cons.1 hs with rfl | hs
      · exact absurd hlt (Nat.lt_irrefl _)
      · exact List.mem_map_of_mem hs
    · rcases List.mem_cons.1 hs with rfl | hs
      · exact absurd (hi.fresh t (mem_tmps.1 ht').1) (Nat.lt_asymm hlt)
      · exact hi.others s hs t ht' hlt
  · rw [ht]
    intro o ho x hx
    rcases List.mem_cons.1 ho with rfl | ho
    · obtain ⟨o, ho, rfl⟩ := List.mem_map.1 hx
      exact hi.fresh o (mem_tmps.1 ho).1
    · exact hi.younger o ho x hx

theorem Inv.createNonEmptyName {h : SymHeap} (hi : h.Inv) {n : Name} (hn : n.isTmp = false) (p : Bool) :
    (h.createNonEmptyName n p).1.Inv := by
  unfold SymHeap.createNonEmptyName
  split
  · exact hi
  · rename_i hnone
    rw [List.find?_eq_none] at hnone
    simp only [decide_eq_true_eq] at hnone
    have ht : tmps { h with pool := ((n, p), ⟨h.next, n, p, []⟩) :: h.pool,
                            live := ⟨h.next, n, p, []⟩ :: h.live, next := h.next + 1 } = h.tmps := by
      simp [tmps, hn]
    constructor
    · simp only [List.map_cons, List.nodup_cons]
      refine ⟨fun hm => ?_, hi.nodup⟩
      obtain ⟨o, ho, hoe⟩ := List.mem_map.1 hm
      exact absurd hoe (Nat.ne_of_lt (hi.fresh o ho))
    · intro o ho
      rcases List.mem_cons.1 ho with rfl | ho
      · exact Nat.lt_succ_self _
      · exact Nat.lt_succ_of_lt (hi.fresh o ho)
    · intro q hq
      rcases List.mem_cons.1 hq with rfl | hq
      · exact List.mem_cons_self
      · exact List.mem_cons_of_mem _ (hi.poolLive q hq)
    · intro q hq
      rcases List.mem_cons.1 hq with rfl | hq
      · exact ⟨rfl, hn⟩
      · exact hi.poolKey q hq
    · simp only [List.map_cons, List.nodup_cons]
      refine ⟨fun hm => ?_, hi.poolNodup⟩
      obtain ⟨q, hq, hqe⟩ := List.mem_map.1 hm
      exact hnone q hq hqe
    · rw [ht]; exact hi.counter
    · rw [ht]; exact hi.named
    · rw [ht]; exact hi.othersNodup
    · rw [ht]; exact hi.others
    · rw [ht]; exact hi.younger

theorem Inv.create {h : SymHeap} (hi : h.Inv) (n : Name) (p : Bool) : (h.create n p).1.Inv := by
  unfold SymHeap.create
  split
  · exact hi
  · split
    · exact hi.createTmp p
    · rename_i hn
      exact hi.createNonEmptyName (by simpa using hn) p

theorem Inv.destroy {h : SymHeap} (hi : h.Inv) (o : SymObj) : (h.destroy o).Inv := by
  unfold SymHeap.destroy
  split
  · rename_i ho
    have hsub : ∀ x, x ∈ h.live.erase o → x ∈ h.live := fun x hx => List.mem_of_mem_erase hx
    have hts : ∀ x, x ∈ (h.live.erase o).filter (fun o => o.name.isTmp) → x ∈ h.tmps := by
      intro x hx
      obtain ⟨h1, h2⟩ := List.mem_filter.1 hx
      exact mem_tmps.2 ⟨hsub x h1, h2⟩
    constructor
    · exact (List.erase_sublist.map _).nodup hi.nodup
    · exact fun x hx => hi.fresh x (hsub x hx)
    · exact fun q hq => (List.mem_erase_of_ne (ho.2 q hq)).2 (hi.poolLive q hq)
    · exact hi.poolKey
    · exact hi.poolNodup
    · have hmod : ∀ k : Nat, 0 < k → (k % 2 ^ 32 + (2 ^ 32 - 1)) % 2 ^ 32 = (k - 1) % 2 ^ 32 := by
        intro k hk
        omega
      cases hn : o.name.isTmp with
      | false =>
        have : (h.live.erase o).filter (fun o => o.name.isTmp) = h.tmps := by
          have h1 : (h.live.erase o).filter (fun o => o.name.isTmp) = h.tmps.erase o := by
            simp [tmps, List.erase_filter]
          rw [h1, List.erase_of_not_mem]
          intro hm
          rw [(mem_tmps.1 hm).2] at hn
          cases hn
        unfold tmps
        rw [this]
        simpa using hi.counter
      | true =>
        have hm : o ∈ h.tmps := mem_tmps.2 ⟨ho.1, hn⟩
        have : (h.live.erase o).filter (fun o => o.name.isTmp) = h.tmps.erase o := by
          simp [tmps, List.erase_filter]
        unfold tmps
        rw [this]
        simp only [if_true]
        rw [List.length_erase_of_mem hm, hi.counter, hmod _ (List.length_pos_of_mem hm)]
    · exact fun x hx => hi.named x (hts x hx)
    · exact fun x hx => hi.othersNodup x (hts x hx)
    · exact fun s hs t ht => hi.others s (hts s hs) t (hts t ht)
    · exact fun x hx => hi.younger x (hts x hx)
  · exact hi

theorem Inv.run {h : SymHeap} (hi : h.Inv) (op : SymOp) : (op.run h).1.Inv := by
  cases op with
  | create n p => exact hi.create n p
  | createTmp p => exact hi.createTmp p
  | destroy o => exact hi.destroy o

theorem Inv.runAll {h : SymHeap} (hi : h.Inv) (ops : List SymOp) : (h.runAll ops).1.Inv := by
  induction ops generalizing h with
  | nil => exact hi
  | cons op ops ih => exact ih (hi.run op)

/-- Nothing leaves the pool. -/
theorem pool_run {h : SymHeap} (op : SymOp) {q} (hq : q ∈ h.pool) : q ∈ (op.run h).1.pool := by
  cases op with
  | create n p =>
    simp only [SymOp.run, SymHeap.create]
    split
    · exact hq
    · split
      · exact hq
      · unfold SymHeap.createNonEmptyName
        split
        · exact hq
        · exact List.mem_cons_of_mem _ hq
  | createTmp p => exact hq
  | destroy o =>
    simp only [SymOp.run, SymHeap.destroy]
    split <;> exact hq

/-- A named symbol that is returned is in the pool afterwards. -/
theorem create_pool {h : SymHeap} {n : Name} {p : Bool} {o : SymObj} (hn : n.isTmp = false)
    (h1 : ((SymOp.create n p).run h).2 = some o) : ((n, p), o) ∈ ((SymOp.create n p).run h).1.pool := by
  simp only [SymOp.run, SymHeap.create] at h1 ⊢
  split at h1
  · cases h1
  · rename_i hne
    simp only [hn, Bool.false_eq_true, if_false, hne, Option.some.injEq] at h1 ⊢
    rw [← h1]
    unfold SymHeap.createNonEmptyName
    split
    · rename_i q hq
      have := List.find?_some hq
      simp only [decide_eq_true_eq] at this
      have hm := List.mem_of_find?_eq_some hq
      simpa [← this] using hm
    · exact List.mem_cons_self

theorem runAll_pool {h : SymHeap} (ops : List SymOp) {q} (hq : q ∈ h.pool) :
    q ∈ (h.runAll ops).1.pool := by
  induction ops generalizing h with
  | nil => exact hq
  | cons op ops ih => exact ih (pool_run op hq)

theorem runAll_create {h : SymHeap} (ops : List SymOp) {n : Name} {p : Bool} {o : SymObj}
    (hn : n.isTmp = false) (hm : (SymOp.create n p, some o) ∈ (h.runAll ops).2) :
    ((n, p), o) ∈ (h.runAll ops).1.pool := by
  induction ops generalizing h with
  | nil => cases hm
  | cons op ops ih =>
    rcases List.mem_cons.1 hm with hm | hm
    · simp only [Prod.mk.injEq] at hm
      obtain ⟨rfl, hm⟩ := hm
      exact runAll_pool ops (create_pool hn hm.symm)
    · exact ih hm

end SymHeap

end Tsym

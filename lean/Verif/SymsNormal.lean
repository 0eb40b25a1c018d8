import Verif.SymsPoly
import Verif.Engine

set_option autoImplicit false
set_option linter.unusedSectionVars false
set_option linter.unusedSimpArgs false

/-!
# Symbols of results: normalisation, and the whole engine
-/

namespace Tsym

open Expr HasSyms

variable {D : Type} [Flt D] {E : Eng D} {S : Sym → Prop}

theorem areEqual_within {l m : List (Expr D)}
    (ih : ∀ a ∈ l, ∀ b, isEqual a b = true → (Within S a ↔ Within S b)) (h : areEqual l m = true) :
    (∀ x ∈ l, Within S x) ↔ ∀ x ∈ m, Within S x := by
  induction l generalizing m with
  | nil => cases m <;> simp_all [areEqual]
  | cons a l ihl =>
    cases m with
    | nil => simp [areEqual] at h
    | cons b m =>
      simp only [areEqual, Bool.and_eq_true] at h
      have h1 := ih a (by simp) b h.1
      have h2 := ihl (fun x hx => ih x (by simp [hx])) h.2
      simp only [List.forall_mem_cons, h1, h2]

/-- Equal expressions have the same symbols. -/
theorem isEqual_within (a : Expr D) : ∀ b, isEqual a b = true → (Within S a ↔ Within S b) := by
  induction a using Expr.ind with
  | num n => intro b h; cases b <;> simp_all [isEqual]
  | sym s => intro b h; cases b <;> simp_all [isEqual]
  | cst c => intro b h; cases b <;> simp_all [isEqual]
  | undef => intro b h; cases b <;> simp_all [isEqual]
  | sum l ih =>
    intro b h
    cases b <;> simp only [isEqual, Bool.false_eq_true] at h
    simpa using areEqual_within ih h
  | prod l ih =>
    intro b h
    cases b <;> simp only [isEqual, Bool.false_eq_true] at h
    simpa using areEqual_within ih h
  | pow c d hc hd =>
    intro b h
    cases b <;> simp only [isEqual, Bool.false_eq_true, Bool.and_eq_true] at h
    simp [hc _ h.1, hd _ h.2]
  | fn f c hc =>
    intro b h
    cases b <;> simp only [isEqual, Bool.false_eq_true, Bool.and_eq_true] at h
    simp [hc _ h.2]
  | atan2 c d hc hd =>
    intro b h
    cases b <;> simp only [isEqual, Bool.false_eq_true, Bool.and_eq_true] at h
    simp [hc _ h.1, hd _ h.2]

theorem mem_tmpIdsList {k : Nat} {l : List (Expr D)} : k ∈ tmpIdsList l ↔ ∃ x ∈ l, k ∈ x.tmpIds := by
  induction l with
  | nil => simp [tmpIdsList]
  | cons a l ih => simp [tmpIdsList, ih]

/-- The number of a temporary symbol that occurs is in the list. -/
theorem mem_tmpIds (e : Expr D) : ∀ s : Sym, Occurs (.sym s) e → ∀ k ∈ s.tmpId, k ∈ e.tmpIds := by
  suffices h : Within (fun s => ∀ k ∈ s.tmpId, k ∈ e.tmpIds) e from h
  induction e using Expr.ind with
  | num n => simp
  | sym s =>
    simp only [within_sym, tmpIds, Sym.tmpId]
    exact fun k hk => hk
  | cst c => simp
  | undef => simp
  | sum l ih =>
    simp only [within_sum, tmpIds]
    exact fun x hx => (ih x hx).mono fun s hs k hk => mem_tmpIdsList.2 ⟨x, hx, hs k hk⟩
  | prod l ih =>
    simp only [within_prod, tmpIds]
    exact fun x hx => (ih x hx).mono fun s hs k hk => mem_tmpIdsList.2 ⟨x, hx, hs k hk⟩
  | pow b e hb he =>
    simp only [within_pow, tmpIds, List.mem_append]
    exact ⟨hb.mono fun s hs k hk => .inl (hs k hk), he.mono fun s hs k hk => .inr (hs k hk)⟩
  | fn f a ha => simpa [tmpIds] using ha
  | atan2 b e hb he =>
    simp only [within_atan2, tmpIds, List.mem_append]
    exact ⟨hb.mono fun s hs k hk => .inl (hs k hk), he.mono fun s hs k hk => .inr (hs k hk)⟩

/-! ## The map -/

theorem SMap.Ext.refl (m : SMap D) : m.Ext m := ⟨⟨[], rfl⟩, rfl⟩

theorem SMap.Ext.trans {a b c : SMap D} (h1 : a.Ext b) (h2 : b.Ext c) : a.Ext c := by
  obtain ⟨⟨l1, h1⟩, h1'⟩ := h1
  obtain ⟨⟨l2, h2⟩, h2'⟩ := h2
  exact ⟨⟨l2 ++ l1, by rw [h2, h1, List.append_assoc]⟩, h2'.trans h1'⟩

theorem SMap.Ext.incl {a b : SMap D} (h : a.Ext b) : ∀ s, a.S S s → b.S S s := by
  obtain ⟨⟨l, h⟩, -⟩ := h
  rintro s (hs | hs)
  · exact .inl hs
  · exact .inr (by rw [h]; simp only [List.map_append, List.mem_append]; exact .inr hs)

/-- The result of a function that extends a map. -/
def MapRes {α : Type} [HasSyms α] (S : Sym → Prop) (m : SMap D) (r : α × SMap D) : Prop :=
  r.2.Ok S ∧ m.Ext r.2 ∧ ws (r.2.S S) r.1

theorem getTmp_sy (hE : Syms E) {e : Expr D} {m : SMap D} (hm : m.Ok S) (he : Within (m.S S) e) :
    wp (fun _ => True) (getTmp E e m) (MapRes S m) := by
  unfold getTmp
  split
  · rename_i p hp
    refine wp_pure ⟨hm, .refl m, ?_⟩
    simp only [ws_expr, within_sym]
    exact .inr (List.mem_map_of_mem (List.mem_of_find?_eq_some hp))
  · refine wp_bind wp_true fun pos _ => wp_pure ?_
    have hf := hE.ok.fresh (m.used ++ e.tmpIds)
    generalize E.cfg.fresh (m.used ++ e.tmpIds) = k at hf
    simp only [List.mem_append, SMap.used, List.mem_flatMap, not_or, not_exists, not_and] at hf
    obtain ⟨⟨hf1, hf2⟩, -⟩ := hf
    refine ⟨⟨.cons hm.1 he ?_ ?_, hm.2⟩, ⟨⟨[_], rfl⟩, rfl⟩, ?_⟩
    · intro hs
      exact hf1 (hm.2 _ hs k (by simp [Sym.tmpId]))
    · intro ht
      obtain ⟨p, hp, hpt⟩ := List.mem_map.1 ht
      exact hf2 p hp (by simp [hpt, Sym.tmpId])
    · simp only [ws_expr, within_sym]
      exact .inr (by simp)

theorem MapRes.trans {α : Type} [HasSyms α] {m m' : SMap D} {r : α × SMap D} (h : m.Ext m')
    (h2 : MapRes S m' r) : MapRes S m r := ⟨h2.1, h.trans h2.2.1, h2.2.2⟩

theorem cancelNonTrivial_sy (hE : Syms E) {f : Frac D} (hf : ws S f) :
    Sy S (cancelNonTrivial E f) := by
  unfold cancelNonTrivial
  sy

macro_rules | `(tactic| sy_rule) => `(tactic| with_reducible apply cancelNonTrivial_sy (by assumption))

theorem cancel_sy (hE : Syms E) {f : Frac D} (hf : ws S f) : Sy S (cancel E f) := by
  unfold cancel
  sy

macro_rules | `(tactic| sy_rule) => `(tactic| with_reducible apply cancel_sy (by assumption))

theorem addFrac_sy (hE : Syms E) {f g : Frac D} (hf : ws S f) (hg : ws S g) : Sy S (addFrac E f g) := by
  unfold addFrac
  sy

macro_rules | `(tactic| sy_rule) => `(tactic| with_reducible apply addFrac_sy (by assumption))

theorem toCommonDenom_sy (hE : Syms E) {l : List (Frac D)} (h : ws S l) : Sy S (toCommonDenom E l) := by
  unfold toCommonDenom
  sy

macro_rules | `(tactic| sy_rule) => `(tactic| with_reducible apply toCommonDenom_sy (by assumption))

theorem normalOperands_sy (hE : Syms E) {l : List (Expr D)} : ∀ {m : SMap D}, m.Ok S → ws S l →
    wp (fun _ => True) (normalOperands E l m) (MapRes S m) := by
  induction l with
  | nil => intro m hm _; unfold normalOperands; exact wp_pure ⟨hm, .refl m, by simp⟩
  | cons a l ih =>
    intro m hm hl
    unfold normalOperands
    refine wp_bind (hE.normalFrac hm (hl a (by simp))) fun r hr => ?_
    refine wp_bind (ih hr.1 fun x hx => hl x (by simp [hx])) fun q hq => wp_pure ?_
    refine ⟨hq.1, hr.2.1.trans hq.2.1, ?_⟩
    intro x hx
    rcases List.mem_cons.1 hx with rfl | hx
    · exact ⟨hr.2.2.1.mono hq.2.1.incl, hr.2.2.2.mono hq.2.1.incl⟩
    · exact hq.2.2 x hx

theorem evaluatePow_sy (hE : Syms E) {b e : Expr D} {m : SMap D} (hm : m.Ok S)
    (hb : Within (m.S S) b) (he : Within (m.S S) e) :
    wp (fun _ => True) (evaluatePow E b e m) (MapRes S m) := by
  unfold evaluatePow
  refine wp_bind (hE.pow hb he) fun p hp => ?_
  split
  · exact wp_pure ⟨hm, .refl m, hp⟩
  · exact getTmp_sy hE hm hp

theorem normalIntegerExp_sy (hE : Syms E) {f : Frac D} {n : Number D} (hf : ws S f) :
    Sy S (normalIntegerExp E f n) := by
  unfold normalIntegerExp
  sy

theorem normalNumEvalExp_sy (hE : Syms E) {f : Frac D} {e : Expr D} {n : Number D} {m : SMap D}
    (hm : m.Ok S) (hf : ws (m.S S) f) (he : Within S e) :
    wp (fun _ => True) (normalNumEvalExp E f e n m) (MapRes S m) := by
  unfold normalNumEvalExp
  have he' : Within (m.S S) e := he.mono fun _ h => .inl h
  split
  · exact wp_err
  · refine wp_bind wp_true fun _ _ => ?_
    refine wp_bind wp_true fun p _ => ?_
    split
    · refine wp_bind (evaluatePow_sy hE hm hf.1 he') fun a ha => ?_
      refine wp_bind (evaluatePow_sy hE ha.1 (hf.2.mono ha.2.1.incl) (he'.mono ha.2.1.incl)) fun b hb => ?_
      exact wp_pure ⟨hb.1, ha.2.1.trans hb.2.1, ha.2.2.mono hb.2.1.incl, hb.2.2⟩
    · refine wp_bind (minus_sy hE he') fun e2 he2 => ?_
      refine wp_bind (evaluatePow_sy hE hm hf.2 he2) fun a ha => ?_
      refine wp_bind (evaluatePow_sy hE ha.1 (hf.1.mono ha.2.1.incl) (he2.mono ha.2.1.incl)) fun b hb => ?_
      refine wp_bind wp_true fun _ _ => ?_
      exact wp_pure ⟨hb.1, ha.2.1.trans hb.2.1, ha.2.2.mono hb.2.1.incl, hb.2.2⟩

theorem wrap_sy {a : Expr D × SMap D} {m : SMap D} (h : MapRes S m a) :
    wp (fun _ => True) (Pure.pure ((⟨a.1, one⟩ : Frac D), a.2) : M D _) (MapRes S m) :=
  wp_pure ⟨h.1, h.2.1, h.2.2, within_one⟩

theorem normalPow_sy (hE : Syms E) {b e : Expr D} {m : SMap D} (hm : m.Ok S) (hb : Within S b)
    (he : Within S e) : wp (fun _ => True) (normalPow E b e m) (MapRes S m) := by
  unfold normalPow
  refine wp_bind (hE.normalFrac hm hb) fun f hf => ?_
  refine wp_bind (hE.normal he) fun re hre => ?_
  refine wp_bind wp_true fun u _ => ?_
  split
  · exact wp_pure ⟨hf.1, hf.2.1, by simp⟩
  · refine wp_bind wp_true fun n _ => ?_
    split
    · split
      · exact wp_bind (normalIntegerExp_sy hE hf.2.2) fun r hr => wp_pure ⟨hf.1, hf.2.1, hr⟩
      · exact wp_mono (normalNumEvalExp_sy hE hf.1 hf.2.2 hre) fun r hr => hr.trans hf.2.1
    · refine wp_bind (evalFrac_sy hE hf.2.2) fun q hq => ?_
      refine wp_bind (hE.pow hq (hre.mono fun _ h => .inl h)) fun p hp => ?_
      exact wp_bind (getTmp_sy hE hf.1 hp) fun t ht => wrap_sy (ht.trans hf.2.1)

theorem frac_sy {m : SMap D} (hm : m.Ok S) {f : Frac D} (hf : ws S f) :
    wp (fun _ => True) (Pure.pure (f, m) : M D _) (MapRes S m) :=
  wp_pure ⟨hm, .refl m, hf.1.mono fun _ h => .inl h, hf.2.mono fun _ h => .inl h⟩

theorem tmp_sy (hE : Syms E) {m : SMap D} (hm : m.Ok S) {e : Expr D} (he : Within S e) :
    wp (fun _ => True) (do
      let t ← getTmp E e m
      Pure.pure ((⟨t.1, one⟩ : Frac D), t.2)) (MapRes S m) :=
  wp_bind (getTmp_sy hE hm (he.mono fun _ h => .inl h)) fun _ ht => wrap_sy ht

theorem normalFrac_sy (hE : Syms E) {a : Expr D} {m : SMap D} (hm : m.Ok S) (ha : Within S a) :
    wp (fun _ => True) (normalFrac E a m) (MapRes S m) := by
  unfold normalFrac
  split
  · exact frac_sy hm (by simp)
  · exact tmp_sy hE hm ha
  · exact frac_sy hm (by simpa using ha)
  · exact tmp_sy hE hm ha
  · exact frac_sy hm (by simp)
  · refine wp_bind wp_true fun z _ => ?_
    split
    · exact frac_sy hm (by simp)
    · refine wp_bind (normalOperands_sy hE hm (by simpa using ha)) fun r hr => ?_
      exact wp_bind (toCommonDenom_sy hE hr.2.2) fun f hf => wp_pure ⟨hr.1, hr.2.1, hf⟩
  · refine wp_bind wp_true fun z _ => ?_
    split
    · exact frac_sy hm (by simp)
    · refine wp_bind (normalOperands_sy hE hm (by simpa using ha)) fun r hr => ?_
      have h1 : ∀ f ∈ r.1, ws (r.2.S S) f := hr.2.2
      refine wp_bind (hE.prod (S := r.2.S S) (l := r.1.map Frac.num) ?_) fun n hn => ?_
      · intro x hx
        obtain ⟨f, hf, rfl⟩ := List.mem_map.1 hx
        exact (h1 f hf).1
      · refine wp_bind (hE.prod (S := r.2.S S) (l := r.1.map Frac.denom) ?_) fun d hd => ?_
        · intro x hx
          obtain ⟨f, hf, rfl⟩ := List.mem_map.1 hx
          exact (h1 f hf).2
        · exact wp_bind (cancel_sy (S := r.2.S S) hE ⟨hn, hd⟩) fun f hf => wp_pure ⟨hr.1, hr.2.1, hf⟩
  · exact normalPow_sy hE hm (by simp_all) (by simp_all)
  · refine wp_bind (hE.normal (S := S) (by simpa using ha)) fun a' ha' => ?_
    exact wp_bind (hE.log ha') fun x hx => tmp_sy hE hm hx
  · refine wp_bind (hE.normal (S := S) (by simpa using ha)) fun a' ha' => ?_
    exact wp_bind (hE.trig ha') fun x hx => tmp_sy hE hm hx
  · simp only [within_atan2] at ha
    refine wp_bind (hE.normal ha.1) fun y hy => ?_
    refine wp_bind (hE.normal ha.2) fun x hx => ?_
    exact wp_bind (hE.atan2 hy hx) fun r hr => tmp_sy hE hm hr

/-! ## Replacing the symbols back -/

/-- The symbols of `S` and of a list of entries. -/
def Ent (S : Sym → Prop) (l : List (Expr D × Sym)) : Sym → Prop := fun s => S s ∨ s ∈ l.map Prod.snd

theorem Chain.tail {l1 l2 : List (Expr D × Sym)} (h : Chain S (l1 ++ l2)) : Chain S l2 := by
  induction l1 with
  | nil => exact h
  | cons p l1 ih => cases h with | cons h _ _ _ => exact ih h

/-- The entries before a suffix have symbols that do not occur in it. -/
theorem Chain.not_mem {l1 l2 : List (Expr D × Sym)} (h : Chain S (l1 ++ l2)) :
    ∀ p ∈ l1, ¬ Ent S l2 p.2 := by
  induction l1 with
  | nil => simp
  | cons q l1 ih =>
    cases h with
    | cons h _ h1 h2 =>
      intro p hp
      rcases List.mem_cons.1 hp with rfl | hp
      · rintro (hs | hs)
        · exact h1 hs
        · exact h2 (by
            change _ ∈ List.map Prod.snd (l1 ++ l2)
            rw [List.map_append]
            exact List.mem_append_right _ hs)
      · exact ih h p hp

/-- An entry of a suffix stands for an expression with symbols of the suffix. -/
theorem Chain.mem {l : List (Expr D × Sym)} (h : Chain S l) : ∀ p ∈ l, Within (Ent S l) p.1 := by
  induction h with
  | nil => simp
  | cons _ he _ _ ih =>
    intro p hp
    rcases List.mem_cons.1 hp with rfl | hp
    · exact he.mono fun s hs => hs.imp id fun h => by simp [h]
    · exact (ih p hp).mono fun s hs => hs.imp id fun h => by
        simp only [List.map_cons, List.mem_cons]; exact .inr h

/-- One pass keeps the symbols within a suffix of the map. -/
theorem replacePass_keep (hE : Syms E) {l1 l2 : List (Expr D × Sym)} (h : Chain S (l1 ++ l2))
    {e : Expr D} (he : Within (Ent S l2) e) :
    wp (fun _ => True) (replacePass E (l1 ++ l2) e) (Within (Ent S l2)) := by
  unfold replacePass
  refine Sy.foldL (S := Ent S l2) he fun b p hp hb => ?_
  have hp : p ∈ l1 ++ l2 := (hE.ok.mapOrder _).mem_iff.1 hp
  refine hE.substSym (hb.mono fun _ h => .inl h) fun ho => ?_
  rcases List.mem_append.1 hp with hp | hp
  · exact absurd (hb _ ho) (h.not_mem p hp)
  · exact h.tail.mem p hp

/-- One pass removes the symbol of the latest entry that may occur. -/
theorem replacePass_remove (hE : Syms E) {l1 l2 : List (Expr D × Sym)} {p0 : Expr D × Sym}
    (h : Chain S (l1 ++ p0 :: l2)) {e : Expr D} (he : Within (Ent S (p0 :: l2)) e) :
    wp (fun _ => True) (replacePass E (l1 ++ p0 :: l2) e) (Within (Ent S l2)) := by
  unfold replacePass
  have ht := h.tail
  have hc : Chain S l2 := by cases ht with | cons h _ _ _ => exact h
  have h0 : Within (Ent S l2) p0.1 := by cases ht with | cons _ h _ _ => exact h
  have hup : ∀ s, Ent S (p0 :: l2) s → Ent S l2 s ∨ s = p0.2 := by
    rintro s (hs | hs)
    · exact .inl (.inl hs)
    · simp only [List.map_cons, List.mem_cons] at hs
      rcases hs with rfl | hs
      · exact .inr rfl
      · exact .inl (.inr hs)
  have hdown : ∀ s, Ent S l2 s → Ent S (p0 :: l2) s := by
    rintro s (hs | hs)
    · exact .inl hs
    · exact .inr (by simp only [List.map_cons, List.mem_cons]; exact .inr hs)
  refine wp_mono (wp_foldL (I := fun rem b => (∀ p ∈ rem, p ∈ l1 ++ p0 :: l2) ∧
    Within (Ent S (p0 :: l2)) b ∧ (p0 ∉ rem → Within (Ent S l2) b)) ?_ e ⟨?_, he, ?_⟩)
    fun r hr => hr.2.2 (by simp)
  · intro p rem b ⟨hrem, hb1, hb2⟩
    have hp := hrem p (by simp)
    have hrem' : ∀ q ∈ rem, q ∈ l1 ++ p0 :: l2 := fun q hq => hrem q (by simp [hq])
    by_cases hpp : p = p0
    · subst hpp
      refine wp_mono (hE.substSym (S := Ent S l2) (hb1.mono hup) fun _ => h0) fun r hr => ?_
      exact ⟨hrem', Within.mono hr hdown, fun _ => hr⟩
    · have k1 : wp (fun _ => True) (E.subst (.sym p.2) p.1 b) (Within (Ent S (p0 :: l2))) := by
        refine hE.substSym (hb1.mono fun _ h => .inl h) fun ho => ?_
        rcases List.mem_append.1 hp with hp | hp
        · exact absurd (hb1 _ ho) (h.not_mem p hp)
        · exact ht.mem p hp
      have k2 : p0 ∉ p :: rem → wp (fun _ => True) (E.subst (.sym p.2) p.1 b) (Within (Ent S l2)) := by
        intro hn
        refine hE.substSym ((hb2 hn).mono fun _ h => .inl h) fun ho => ?_
        rcases List.mem_append.1 hp with hp | hp
        · exact absurd (hb1 _ ho) (h.not_mem p hp)
        · rcases List.mem_cons.1 hp with rfl | hp
          · exact absurd rfl hpp
          · exact hc.mem p hp
      refine wp_mono (wp_and k1 (wp_imp k2)) fun r hr => ⟨hrem', hr.1, fun hn => hr.2 ?_⟩
      simp only [List.mem_cons, not_or]
      exact ⟨fun h => hpp h.symm, hn⟩
  · exact fun p hp => (hE.ok.mapOrder _).mem_iff.1 hp
  · intro hn
    exact absurd ((hE.ok.mapOrder _).mem_iff.2 (by simp)) hn

theorem replaceBack_sy (hE : Syms E) {l : List (Expr D × Sym)} (h : Chain S l) {e : Expr D}
    (he : Within (Ent S l) e) : Sy S (replaceBack E l e) := by
  unfold replaceBack
  refine wp_loop (I := Within (Ent S l)) ?_ E.steps e he
  intro orig ho
  have h1 : wp (fun _ => True) (replacePass E l orig) (Within (Ent S l)) :=
    replacePass_keep (l1 := []) hE h ho
  have h2 : wp (fun _ => True) (replacePass E l orig) fun r => ∀ l1 p0 l2, l = l1 ++ p0 :: l2 →
      Within (Ent S (p0 :: l2)) orig → Within (Ent S l2) r := by
    refine wp_forall fun l1 => wp_forall fun p0 => wp_forall fun l2 => wp_imp fun hl => wp_imp fun hw => ?_
    subst hl
    exact replacePass_remove hE h hw
  refine wp_bind (wp_and h1 h2) fun r hr => ?_
  split
  · rename_i hu
    refine wp_pure ⟨by simp, ?_⟩
    intro x hx
    cases hx
    cases r <;> simp_all [isUndefined]
  · split
    · refine wp_pure ⟨?_, by simp⟩
      intro x hx
      cases hx
      exact hr.1
    · rename_i heq
      refine wp_pure ⟨by simp, ?_⟩
      intro x hx
      cases hx
      have heq : isEqual r orig = true := by simpa using heq
      suffices hs : ∀ l2 l1, l = l1 ++ l2 → Within (Ent S l2) r → Within S r from hs l [] rfl hr.1
      intro l2
      induction l2 with
      | nil => intro l1 _ hw; exact hw.mono fun s hs => hs.elim id (by simp)
      | cons p0 l2 ih =>
        intro l1 hl hw
        refine ih (l1 ++ [p0]) (by simp [hl]) (hr.2 l1 p0 l2 hl ?_)
        exact (isEqual_within r orig heq).1 hw

theorem normal_sy (hE : Syms E) {a : Expr D} (ha : Within S a) : Sy S (normal E a) := by
  let S' : Sym → Prop := fun s => S s ∧ Occurs (.sym s) a
  have ha' : Within S' a := fun s hs => ⟨ha s hs, hs⟩
  have hm : (⟨[], a.tmpIds⟩ : SMap D).Ok S' := ⟨.nil, fun s hs => mem_tmpIds a s hs.2⟩
  suffices h : Sy S' (normal E a) from wp_mono h fun r hr => Within.mono hr fun _ h => h.1
  unfold normal
  refine wp_bind (P := fun p : (Frac D × SMap D) × List (Cond D) => MapRes S' ⟨[], a.tmpIds⟩ p.1)
    (wp_capture fun f cs hp => hE.normalFrac hm ha' f cs hp fun _ _ => trivial) fun p hp => ?_
  obtain ⟨hp1, -, hp2, hp3⟩ := hp
  refine Sy.bind (Sy.capture (replaceBack_sy hE hp1.1 hp2)) fun n hn => ?_
  refine Sy.bind (Sy.capture (replaceBack_sy hE hp1.1 hp3)) fun d hd => ?_
  refine Sy.bind Sy.unit fun _ _ => ?_
  exact evalFrac_sy hE ⟨hn.1, hd.1⟩

/-! ## All functions -/

theorem syms_eng0 {cfg : Cfg D} (h : cfg.Ok) : Syms (eng0 cfg) where
  ok := h
  sum _ := Sy.err
  prod _ := Sy.err
  pow _ _ := Sy.err
  log _ := Sy.err
  trig _ := Sy.err
  atan2 _ _ := Sy.err
  expand _ := Sy.err
  expandAsProduct _ := Sy.err
  subst _ _ := Sy.err
  substSym _ _ := Sy.err
  normal _ := Sy.err
  normalFrac _ _ := wp_err
  coeff _ := Sy.err
  simplSum _ := Sy.err
  sumSimplify _ := Sy.err
  prodSimplify _ := Sy.err
  divide _ _ := Sy.err
  gcd _ _ := Sy.err
  mergeSum _ _ := Sy.err
  simplProd _ := Sy.err
  mergeProd _ _ := Sy.err
  simplPow _ _ := Sy.err
  divideL _ _ _ := Sy.err
  gcdL _ _ _ := Sy.err
  diff _ := Sy.err
  tamePow _ _ := wp_err
  tameProd _ := wp_err
  tameProdSimplify _ := wp_err
  tameSimplProd _ := wp_err
  tameMerge _ _ := wp_err
  tameMerge1 _ _ := wp_err
  tameSimplPow _ _ := wp_err
  tameNeg _ := wp_err

theorem syms_step (hE : Syms E) : Syms (engStep E) where
  ok := hE.ok
  sum := sumCreate_sy hE
  prod := prodCreate_sy hE
  pow := powCreate_sy hE
  log := logCreate_sy hE
  trig := trigCreate_sy hE
  atan2 := atan2Create_sy hE
  expand := expand_sy hE
  expandAsProduct := expandAsProduct_sy hE
  subst := subst_sy hE
  substSym := substSym_sy hE
  normal := normal_sy hE
  normalFrac := normalFrac_sy hE
  coeff := coeff_sy hE
  simplSum := simplSum_sy hE
  sumSimplify := simplSum_sy hE
  prodSimplify := simplProd_sy hE
  divide := polyDivide_sy hE
  gcd := polyGcd_sy hE
  mergeSum := mergeSum_sy hE
  simplProd := simplProd_sy hE
  mergeProd := mergeProd_sy hE
  simplPow := simplPow_sy hE
  divideL := divideL_sy hE
  gcdL := gcdL_sy hE
  diff := diff_sy hE
  tamePow := powCreate_tame hE
  tameProd := prodCreate_tame hE
  tameProdSimplify := simplProd_tame hE
  tameSimplProd := simplProd_tame hE
  tameMerge := mergeProd_tame hE
  tameMerge1 := mergeProd_tame1 hE
  tameSimplPow := simplPow_tame hE
  tameNeg := isNeg_tame hE

/-- No function of the library brings in a symbol. -/
theorem syms_eng {cfg : Cfg D} (h : cfg.Ok) : ∀ n, Syms (eng cfg n)
  | 0 => syms_eng0 h
  | n + 1 => syms_step (syms_eng h n)

end Tsym

import Verif.SymsNormal
import Verif.Api

set_option autoImplicit false
set_option linter.unusedSectionVars false

/-!
# Symbols of results: the functions a user calls
-/

namespace Tsym

open Expr HasSyms

variable {D : Type} [Flt D] {E : Eng D} {S : Sym → Prop}

theorem Api.normalLoop_sy (hE : Syms E) {a b : Expr D} (ha : Within S a) (hb : Within S b) :
    Sy S (Api.normalLoop E a b) := by
  unfold Api.normalLoop
  sy

theorem Api.simplest_within {a b c : Expr D} (ha : Within S a) (hb : Within S b) (hc : Within S c) :
    Within S (Api.simplest a b c) := by
  unfold Api.simplest
  dsimp only
  repeat' split
  all_goals assumption

theorem Api.simplify_sy (hE : Syms E) {a : Expr D} (ha : Within S a) : Sy S (Api.simplify E a) := by
  unfold Api.simplify
  refine Sy.bind (hE.expand ha) fun x hx => ?_
  refine Sy.bind (hE.normal ha) fun n hn => ?_
  split
  · exact Sy.pure hn
  · refine Sy.bind (Api.normalLoop_sy hE ha hn) fun n2 hn2 => ?_
    exact Sy.bind (hE.expand hn2) fun y hy => Sy.pure (Api.simplest_within hx hy hn2)

theorem Api.normalToFraction_sy (hE : Syms E) {a : Expr D} (ha : Within S a) :
    Sy S (Api.normalToFraction E a) := by
  let S' : Sym → Prop := fun s => S s ∧ Occurs (.sym s) a
  have ha' : Within S' a := fun s hs => ⟨ha s hs, hs⟩
  have hm : (⟨[], a.tmpIds⟩ : SMap D).Ok S' := ⟨.nil, fun s hs => mem_tmpIds a s hs.2⟩
  suffices h : Sy S' (Api.normalToFraction E a) from
    wp_mono h fun r hr => ⟨hr.1.mono fun _ h => h.1, hr.2.mono fun _ h => h.1⟩
  unfold Api.normalToFraction
  refine wp_bind (P := fun p : (Frac D × SMap D) × List (Cond D) => MapRes S' ⟨[], a.tmpIds⟩ p.1)
    (wp_capture fun f cs hp => hE.normalFrac hm ha' f cs hp fun _ _ => trivial) fun p hp => ?_
  obtain ⟨hp1, -, hp2, hp3⟩ := hp
  refine Sy.bind (Sy.capture (replaceBack_sy hE hp1.1 hp3)) fun d hd => ?_
  refine Sy.bind (Sy.capture (replaceBack_sy hE hp1.1 hp2)) fun n hn => ?_
  refine Sy.bind Sy.unit fun _ _ => ?_
  exact Sy.pure ⟨hn.1, hd.1⟩

end Tsym

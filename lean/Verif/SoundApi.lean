import Verif.SoundNormal
import Verif.SymsApi

set_option autoImplicit false
set_option linter.unusedSectionVars false

/-!
# Values of the results of the interface functions simplify, numerator and denominator
-/

namespace Tsym

namespace Api

open Expr

variable {D : Type} [Flt D] [LawfulFlt D] {E : Eng D} {σ : Asg}

/-- The numerator and the denominator have values, and the quotient is the value of the expression. -/
theorem normalToFraction_wp (hE : Sound E) (hσ : σ.Respects) {a : Expr D} {v : ℝ} (h : den σ a = some v) :
    wp (Cond.holds σ) (normalToFraction E a) fun f => ∃ x y, den σ f.num = some x ∧
      den σ f.denom = some y ∧ y ≠ 0 ∧ v = x / y := by
  let S : Sym → Prop := fun s => Occurs (.sym s) a
  have ha : Within S a := fun s hs => hs
  have hm : (⟨[], a.tmpIds⟩ : SMap D).Ok S := ⟨.nil, fun s hs => mem_tmpIds a s hs⟩
  unfold normalToFraction
  refine wp_bind (P := fun p : (Frac D × SMap D) × List (Cond D) =>
    E.normalFrac a ⟨[], a.tmpIds⟩ = .ok (p.1, p.2)) (wp_capture fun f cs hp => hp) fun p hp => ?_
  refine wp_bind (P := fun n : Expr D × List (Cond D) =>
    replaceBack E p.1.2.entries p.1.1.denom = .ok (n.1, n.2)) (wp_capture fun f cs hp => hp) fun d hd => ?_
  refine wp_bind (P := fun n : Expr D × List (Cond D) =>
    replaceBack E p.1.2.entries p.1.1.num = .ok (n.1, n.2)) (wp_capture fun f cs hp => hp) fun n hn => ?_
  refine wp_bind (P := fun _ => ∀ c ∈ p.2 ++ d.2 ++ n.2, Cond.holds (ext σ p.1.2.entries) c)
    (wp_emit fun hc c hcm => ?_) fun _ hc => wp_pure ?_
  · exact hc _ (List.mem_map_of_mem hcm)
  obtain ⟨hp1, -, hp2, hp3⟩ := hE.syms.normalFrac hm ha p.1 p.2 hp fun _ _ => trivial
  have hn1 := replaceBack_sy hE.syms hp1.1 hp2 n.1 n.2 hn fun _ _ => trivial
  have hd1 := replaceBack_sy hE.syms hp1.1 hp3 d.1 d.2 hd fun _ _ => trivial
  have hτ : (ext σ p.1.2.entries).Respects := extend_respects hσ _
  have hF := ext_fits (σ := σ) hp1.1
  have back : ∀ {e : Expr D}, Within S e → den (ext σ p.1.2.entries) e = den σ e := fun he =>
    den_congr _ (he.mono fun s hs => ext_of_S hp1.1 hs)
  have hc1 : ∀ c ∈ p.2, Cond.holds (ext σ p.1.2.entries) c := fun c hcm => hc c (by simp [hcm])
  have hc2 : ∀ c ∈ n.2, Cond.holds (ext σ p.1.2.entries) c := fun c hcm => hc c (by simp [hcm])
  have hc3 : ∀ c ∈ d.2, Cond.holds (ext σ p.1.2.entries) c := fun c hcm => hc c (by simp [hcm])
  obtain ⟨-, hN⟩ := hE.normalFrac hτ hF (back ha ▸ h) p.1 p.2 hp hc1
  obtain ⟨hG, N, M, h1, h2, h3, h4⟩ := hN (fun p hp => hp) (by simp [Good])
  have hn2 := replaceBack_vl hE hτ hF hG h1 n.1 n.2 hn hc2
  have hd2 := replaceBack_vl hE hτ hF hG h2 d.1 d.2 hd hc3
  simp only at hn2 hd2
  rw [back hn1] at hn2
  rw [back hd1] at hd2
  exact ⟨N, M, hn2, hd2, h3, h4⟩

theorem normalLoop_vl (hE : Sound E) (hσ : σ.Respects) {a b : Expr D} {v : ℝ} (h : den σ b = some v) :
    Vl σ (normalLoop E a b) v := by
  unfold normalLoop
  refine wp_loop (I := fun s : Expr D × Expr D => den σ s.2 = some v) (fun s hs => ?_) _ _ h
  refine wp_ite (fun _ => wp_pure ⟨by simp, fun x hx => by cases hx; exact hs⟩) fun _ => ?_
  exact wp_bind (hE.normal hσ hs) fun n hn => wp_pure ⟨fun x hx => by cases hx; exact hn, by simp⟩

theorem simplify_vl (hE : Sound E) (hσ : σ.Respects) {a : Expr D} {v : ℝ} (h : den σ a = some v) :
    Vl σ (simplify E a) v := by
  unfold simplify
  refine wp_bind (hE.expand hσ h) fun x hx => wp_bind (hE.normal hσ h) fun n hn => ?_
  refine wp_ite (fun _ => wp_pure hn) fun _ => ?_
  refine wp_bind (normalLoop_vl hE hσ hn) fun m hm => wp_bind (hE.expand hσ hm) fun em hem => wp_pure ?_
  unfold simplest
  by_cases h1 : complexity em < complexity x <;> simp only [h1, if_true, if_false]
  all_goals split <;> assumption

end Api

end Tsym

import Verif.Props.NodeTable
import Verif.Props.MispW
import Verif.Props.TspW
import Verif.Props.OwnEq
import Verif.Props.DD
/-!
# C143 for the examples

The equalities of the examples are equivalences, so their tables are the ones of `node_table` and `pool_table`.
-/
namespace Verif.Ex
open Verif.DD Verif.Hash Verif.GNSet

theorem eqOK_key {σ κ : Type} [DecidableEq κ] {eqv : σ → σ → Bool} (f : σ → κ) (h : ∀ a b, eqv a b = decide (f a = f b)) : EqOK eqv where
  refl := fun a => by rw [h]; simp
  symm := fun a b e => by rw [h, decide_eq_true_iff] at e ⊢; exact e.symm
  trans := fun a b c e k => by rw [h, decide_eq_true_iff] at e k ⊢; exact e.trans k

theorem tsp_eqOK : EqOK TspW.eqv := eqOK_key (fun x => x.abs.core) (fun a b => (TspW.eqv_core a b).symm)

theorem misp_eqOK : EqOK MispW.eqv := eqOK_key (fun x => (x.n, mask x.sel, x.l)) (fun a b => by
  unfold MispW.eqv
  rw [Bool.eq_iff_iff, Bool.and_eq_true, Bool.and_eq_true, decide_eq_true_iff, decide_eq_true_iff, decide_eq_true_iff, eq_mask]
  simp only [Prod.mk.injEq]
  exact and_assoc)

theorem gru_eqOK : EqOK GolS.eqC := eqOK_key (fun x => (x.k, x.e, x.m)) (fun a b => by
  unfold GolS.eqC
  rw [Bool.eq_iff_iff, Bool.and_eq_true, Bool.and_eq_true, decide_eq_true_iff, decide_eq_true_iff, decide_eq_true_iff, decide_eq_true_iff]
  simp only [Prod.mk.injEq]
  exact and_assoc)

theorem midlb_eqOK : EqOK GolB.eqC := ⟨fun a => gru_eqOK.refl a.g, fun a b => gru_eqOK.symm a.g b.g, fun a b c => gru_eqOK.trans a.g b.g c.g⟩

/-- States compared field by field: the table finds exactly the equal state, whatever the hash. -/
theorem plain_table {σ : Type} [DecidableEq σ] {eqv : σ → σ → Bool} (h : ∀ a b, eqv a b = decide (a = b)) (n : Nat) (hash : σ → Nat) :
    tabSame n eqv hash = instSameEq := by
  unfold tabSame instSameEq
  congr 1
  funext a b
  rw [h]
  by_cases e : a = b
  · subst e; simp
  · simp [e]

/-- The run of tsp.cpp on 70 cities that C142 is about, with the search's own pool: backed by its table. -/
example (w fu N : Nat) (lim : Nat → Bool) (h0 : HT TspW Nat) (hh : mk' 200000 = some h0) (s : BB.BS TspW)
    (hs : @BB.search _ tspSame t70.mdlW w fu lim N 2147483647 = some s) : Backed (fun a => a.hash.toNat) TspW.eqv h0 s.pst s.pn :=
  pool_table tsp_eqOK hh _ _ _ w fu lim N _ s hs

/-- A diagram in which all states collide: the third compilation of a `DD` object. -/
example (h0 : HT Nat Nat) (hh : mk' 200000 = some h0) : ∃ g, relaxed f1 2147483647 2 10 f1.src0 = some g ∧ 5 < g.nn ∧
    Backed (fun _ => 7) (fun a b => decide (a = b)) (life (fun _ => 7) (fun a b => decide (a = b)) h0 [(id, 9), (fun _ => 3, 2)]) g.st g.nn := by
  have hv : (relaxed f1 2147483647 2 10 f1.src0).map (fun g => decide (5 < g.nn)) = some true := by decide +kernel
  obtain ⟨g, h1, h2⟩ := Option.map_eq_some_iff.1 hv
  refine ⟨g, h1, of_decide_eq_true h2, node_table (eqOK_key id (fun _ _ => rfl)) hh _ (by decide) f1 2147483647 2 10 f1.src0 g (.inr (.inr ?_))⟩
  show @relaxed Nat (tabSame 200191 (fun a b => decide (a = b)) (fun _ => 7)) f1 2147483647 2 10 f1.src0 = some g
  have e : tabSame 200191 (fun a b : Nat => decide (a = b)) (fun _ => 7) = instSameEq := plain_table (fun _ _ => rfl) _ _
  exact e ▸ h1

end Verif.Ex

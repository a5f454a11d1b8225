import Verif.Model.RpcConn
import Verif.Props.ObjB
/-! # The context of a connection keeps what requests store: C155 -/
namespace Imt.Props
open Imt Imt.Obj Imt.ObjB Imt.Spec Imt.RpcConn

variable {α : Type}

/-- The stores of one connection, oldest first. -/
def connStores (c : Nat) : List (RpcConn.COp α) → List (Bytes × α)
  | [] => []
  | .store c' k v :: ops => if c' = c then (k, v) :: connStores c ops else connStores c ops
  | .retrieve _ _ :: ops => connStores c ops

/-- The values the retrieves should deliver: the value stored last under the key on the same connection, undefined if there is none. -/
def connAnswers (undef : α) : List (RpcConn.COp α) → List (RpcConn.COp α) → List α
  | _, [] => []
  | past, .store c k v :: ops => connAnswers undef (past ++ [.store c k v]) ops
  | past, .retrieve c k :: ops => (lastVal (connStores c past) k).getD undef :: connAnswers undef (past ++ [.retrieve c k]) ops

theorem connStores_append (c : Nat) (a b : List (RpcConn.COp α)) : connStores c (a ++ b) = connStores c a ++ connStores c b := by
  induction a with
  | nil => rfl
  | cons o a ih =>
    cases o with
    | store c' k v => simp only [List.cons_append, connStores]; split <;> simp [ih]
    | retrieve c' k => simp only [List.cons_append, connStores, ih]

theorem conn_run (isDef : α → Bool) (undef : α) : ∀ (ops past : List (RpcConn.COp α)) (w : RpcConn.World α),
    (∀ c, RepO (w c) ⟨false, fun _ => none, lastVal (connStores c past)⟩) →
    ∃ w', RpcConn.run isDef undef ops w = .ok (connAnswers undef past ops, w')
  | [], past, w, _ => ⟨w, rfl⟩
  | .store c k v :: ops, past, w, h => by
    obtain ⟨o, s', e, _, hr⟩ := runO_rep isDef undef (.set k v) trivial (h c)
    have e' : ObjB.set isDef (w c) k v = s' := by simp [runO] at e; exact e.2
    refine conn_run isDef undef ops (past ++ [.store c k v]) (w.put c (RpcConn.store isDef (w c) k v)) ?_
    intro x
    unfold World.put RpcConn.store
    rw [connStores_append]
    by_cases hx : x = c
    · subst hx
      rw [if_pos rfl, e']
      have : (lastVal (connStores x past ++ connStores x [.store x k v])) = upd (lastVal (connStores x past)) k v := by
        funext y
        rw [lastVal_append]
        simp [connStores, lastVal_singleton, upd]
        split <;> simp
      rw [this]; exact hr
    · rw [if_neg hx]
      simp only [connStores, if_neg (Ne.symm hx), List.append_nil]
      exact h x
  | .retrieve c k :: ops, past, w, h => by
    obtain ⟨o, s', e, hs, hr⟩ := runO_rep isDef undef (.read k) trivial (h c)
    have hg : ∃ v, ObjB.get isDef undef (w c) k = .ok (v, s') ∧ o = .value v := by
      simp only [runO] at e
      cases hget : ObjB.get isDef undef (w c) k with
      | ok r =>
        rw [hget] at e
        simp at e
        exact ⟨r.1, by rw [← e.2], e.1.symm⟩
      | _ => rw [hget] at e; simp at e
    obtain ⟨v, hg, ho⟩ := hg
    have hv : v = (lastVal (connStores c past) k).getD undef := by
      have : o = .value (MState.show undef ⟨false, fun _ => none, lastVal (connStores c past)⟩ k) := hs
      rw [ho] at this
      simpa [MState.show] using this
    obtain ⟨w', hw⟩ := conn_run isDef undef ops (past ++ [.retrieve c k]) (w.put c s') (by
      intro x
      rw [connStores_append]
      simp only [connStores, List.append_nil, World.put]
      by_cases hx : x = c
      · subst hx; rw [if_pos rfl]; exact hr
      · rw [if_neg hx]; exact h x)
    refine ⟨w', ?_⟩
    rw [RpcConn.run, RpcConn.retrieve, hg]
    simp [hw, connAnswers, hv]

/-- **C155.** Whatever requests on however many connections store and retrieve, no operation is undefined and each retrieve delivers the
value stored last under that key on the same connection: undefined if nothing was stored or if undefined was stored to remove it. -/
theorem C155_context (isDef : α → Bool) (undef : α) (ops : List (RpcConn.COp α)) :
    ∃ w, RpcConn.run isDef undef ops RpcConn.init = .ok (connAnswers undef [] ops, w) :=
  conn_run isDef undef ops [] RpcConn.init fun _ => rep_start false List.Pairwise.nil

example : (match RpcConn.run (· != 0) 0 [.store 1 [7] 5, .store 2 [7] 6, .retrieve 1 [7], .store 1 [7] 0, .retrieve 1 [7], .retrieve 2 [7],
    .retrieve 2 [8]] RpcConn.init with | .ok (l, _) => l | _ => []) = [5, 0, 6, 0] := by decide +kernel

end Imt.Props

import Verif.Proofs.Failing
import Verif.Proofs.Snapshot
/-! Iterators whose lookups fail now and then. -/

set_option autoImplicit false

namespace Verif.Jmt
variable {D : Type}
open VTree Spec

theorem ofNode {r : FReader D} {nk : NodeKey} {n : Node D} (h : r.held.getNodeOption nk = some n) :
    r.getNode nk = .ok n ∨ ∃ m, r.getNode nk = .error (.err m) := by
  rcases FReader.node_fail (r := r) (P := Fails r) (fun _ h => h) nk with e | ⟨m, _, e⟩
  · rw [e, getNode_of h]; exact .inl rfl
  · exact .inr ⟨m, e⟩

/-- After an error on the way down the iterator has the same entries to yield as before. -/
theorem nextLoop_kept {H : Hasher D} {r : FReader D} {c : Reader D} (hb : Below c r.held) {f : Key → Option Value} (ver : Version) (t : VTree D) :
    ∀ (fuel : Nat) (st : List (NodeVisitInfo D)) (p : List Nibble) (R : List (Key × D)), Ready H c f st p t R →
    ∀ e it, r.nextLoop ver fuel st = .ok (some (.error e), it) → ∃ st', it = ⟨ver, st', false⟩ ∧ Left H c f st' (t.entries ++ R) := by
  induction t with
  | empty =>
    intro fuel st p R h
    obtain ⟨info, st', p', ch, i, R', rfl, hf, hs, he, rfl, rfl⟩ := h
    exact absurd he hf.here
  | leaf w k x =>
    intro fuel st p R h e it hn
    have hl : Left H c f st ((VTree.leaf w k x).entries ++ R) := .inr ⟨_, _, _, h, rfl⟩
    obtain ⟨info, st', p', ch, i, R', rfl, hf, hs, he, rfl, rfl⟩ := h
    obtain ⟨⟨v, m, hg, rfl⟩, hne⟩ := hf
    have hlen := wf_node_length hg.wf
    have hgi := hg.child i
    rw [he] at hgi hne
    cases fuel with
    | zero => cases hn
    | succ fuel =>
      unfold FReader.nextLoop at hn
      simp only [onlyChildIndex_shl] at hn
      have hc : (nodeOf H m ch).child i = some ⟨H.leaf k x, w, .leaf⟩ := by
        show (ch i).child H = _
        rw [he]; rfl
      rw [hc] at hn
      simp only [NodeKey.genChild, rootNibbleHeight, hlen, if_true] at hn
      have hroot := hgi.has.root hne
      simp only [version_leaf] at hroot
      rcases ofNode (hb.node _ _ hroot) with g | ⟨m', g⟩
      · rw [g] at hn
        simp only [toNode] at hn
        cases hv : r.getValue w k with
        | error e' => rw [hv] at hn; cases hn; exact ⟨_, rfl, hl⟩
        | ok y =>
          rw [hv] at hn
          simp only at hn
          split at hn <;> cases hn
      · rw [g] at hn; cases hn; exact ⟨_, rfl, hl⟩
  | node w mm cch ih =>
    intro fuel st p R h e it hn
    have hl : Left H c f st ((VTree.node w mm cch).entries ++ R) := .inr ⟨_, _, _, h, rfl⟩
    have hfr := h.frames
    obtain ⟨info, st', p', ch, i, R', rfl, hf, hs, he, rfl, rfl⟩ := h
    obtain ⟨⟨v, m, hg, rfl⟩, hne⟩ := hf
    have hlen := wf_node_length hg.wf
    have hgi := hg.child i
    rw [he] at hgi hne
    obtain ⟨info', b, e1, e2, e3⟩ := hgi.newFirst
    cases fuel with
    | zero => cases hn
    | succ fuel =>
      have hready : Ready H c f (info' :: _ :: st') (p' ++ [i] ++ [b]) (cch b)
          (esOf cch (fromL (b.val + 1)) ++ (esOf ch (fromL (i.val + 1)) ++ R')) :=
        ⟨info', _, p' ++ [i], cch, b, _, rfl, e2, hfr, rfl, rfl, rfl⟩
      unfold FReader.nextLoop at hn
      simp only [onlyChildIndex_shl] at hn
      have hc : ∃ c, (nodeOf H m ch).child i = some c ∧ c.version = w := by
        show ∃ c, (ch i).child H = some c ∧ _
        rw [he]
        exact ⟨_, rfl, rfl⟩
      obtain ⟨c, hc, hcv⟩ := hc
      rw [hc] at hn
      simp only [NodeKey.genChild, rootNibbleHeight, hlen, if_true, hcv] at hn
      have hroot := hgi.has.root hne
      simp only [version_node] at hroot
      rcases ofNode (hb.node _ _ hroot) with g | ⟨m', g⟩
      · rw [g] at hn
        simp only [toNode] at hn
        rw [e1] at hn
        have := ih b fuel _ _ _ hready e it hn
        rw [e3, List.append_assoc]
        exact this
      · rw [g] at hn; cases hn; exact ⟨_, rfl, hl⟩

/-- One call of `next`, with whatever else the reader holds. -/
theorem next_step {H : Hasher D} {r : FReader D} {f : Key → Option Value} {v : Version} {t : VTree D} {it : Iter D}
    (hs : Sound H v f t) (hh : HoldsAt H r.held v f t) {E : List (Key × D)}
    (h : ItOk H (core H t v f) f v t it E) :
    (E = [] ∧ r.next it = .ok (none, it)) ∨
    (∃ e E' x it', E = e :: E' ∧ f e.1 = some x ∧ r.next it = .ok (some (.ok (e.1, x)), it') ∧ ItOk H (core H t v f) f v t it' E') ∨
    (∃ m it', Fails r m ∧ r.next it = .ok (some (.error (.err m)), it') ∧ (ItOk H (core H t v f) f v t it' E ∨
      (¬ (t.isLeaf = false ∨ ∀ k, r.valueError v k = none) ∧ ItOk H (core H t v f) f v t it' []))) := by
  rcases FReader.next_fail (r := r) (P := Fails r) (fun _ h => h) it with e | ⟨m, it', hm, e⟩
  · cases E with
    | nil => exact .inl ⟨rfl, e.trans (hh.next_eq (o := none) (next_nil hs.core.root h rfl))⟩
    | cons a E =>
      obtain ⟨x, it', h1, h2, h3⟩ := next_cons hs.core.root hs.core.value (fun _ _ => hs.some) h rfl
      exact .inr (.inl ⟨a, E, x, it', rfl, h1, e.trans (hh.next_eq (o := Option.some _) h2), h3⟩)
  · refine .inr (.inr ⟨m, it', hm, e, ?_⟩)
    cases h with
    | done _ hd =>
      unfold FReader.next at e
      rw [if_pos hd] at e
      cases e
    | leaf hl =>
      unfold FReader.next at e
      simp only [Bool.false_eq_true, if_false, List.isEmpty_nil, if_true, FReader.nextRoot] at e
      rcases ofNode hh.root with g | ⟨m', g⟩
      · have g' : r.getNode (.newEmptyPath v) = .ok (t.toNode H) := g
        cases t with
        | empty => cases hl
        | node => cases hl
        | leaf w k x =>
          rw [g'] at e
          simp only [toNode] at e
          injection e with e
          injection e with e2 e
          subst e
          refine .inr ⟨?_, .done _ rfl⟩
          rintro (hc | hc)
          · cases hc
          · obtain ⟨y, hy⟩ := Option.isSome_iff_exists.1 (hs.some (k := k) (x := x) (by simp [VTree.entries]))
            have : r.getValue v k = .ok y := by
              unfold FReader.getValue FReader.getValueOption answer
              rw [hc, hh.value, hy]; rfl
            rw [this] at e2; cases e2
      · have g' : r.getNode (.newEmptyPath v) = .error (.err m') := g
        rw [g'] at e
        cases e
        exact .inl (.leaf hl)
    | stack st E hn hne h =>
      unfold FReader.next at e
      simp only [Bool.false_eq_true, if_false] at e
      have hl := h
      rcases h with ⟨rfl, h0⟩ | ⟨p, t', R, hr, he⟩
      · simp only [List.isEmpty_nil, if_true, FReader.nextRoot] at e
        split at e
        · rename_i l hl'
          rcases ofNode hh.root with g | ⟨m', g⟩
          · have g' : r.getNode (.newEmptyPath v) = .ok (t.toNode H) := g
            rw [hl'] at g'
            cases t with
            | empty => exact absurd rfl hne
            | leaf => cases hn
            | node => cases g'
          · have g' : r.getNode (.newEmptyPath v) = .error (.err m') := g
            rw [hl'] at g'; cases g'
        · cases e
        · cases e
        · cases e; exact .inl (.stack _ _ hn hne hl)
      · have hst : st.isEmpty = false := by
          obtain ⟨info, st', p', ch, i, R', rfl, _⟩ := hr
          rfl
        simp only [hst, Bool.false_eq_true, if_false] at e
        obtain ⟨st2, rfl, h2⟩ := nextLoop_kept hh.below v t' 66 st p R hr _ _ e
        rw [← he] at h2
        exact .inl (.stack _ _ hn hne h2)

/-- Any number of calls, each with its own failures. -/
theorem calls_spec {H : Hasher D} {f : Key → Option Value} {v : Version} {t : VTree D}
    (hs : Sound H v f t) (rs : List (FReader D))
    (hrs : ∀ r ∈ rs, HoldsAt H r.held v f t) (it : Iter D) (E : List (Key × D)) (h : ItOk H (core H t v f) f v t it E) :
    ∃ as, calls rs it = .ok as ∧ as.length = rs.length ∧ pairs as <+: E.filterMap (fun e => (f e.1).map (fun x => (e.1, x))) ∧
      ((t.isLeaf = false ∨ ∀ r ∈ rs, ∀ k, r.valueError v k = none) →
        ∀ i : Nat, as[i]? = some none → pairs (as.take i) = E.filterMap (fun e => (f e.1).map (fun x => (e.1, x)))) ∧
      ∀ (i : Nat) r e, rs[i]? = some r → as[i]? = some (some (.error e)) → ∃ m, e = .err m ∧ Fails r m := by
  induction rs generalizing it E with
  | nil => exact ⟨[], rfl, rfl, List.nil_prefix, by simp, by simp⟩
  | cons r rs ih =>
    rcases next_step hs (hrs r (by simp)) h with ⟨rfl, e⟩ | ⟨a, E', x, it', rfl, hx, e, h'⟩ | ⟨m, it', hm, e, h'⟩
    · obtain ⟨as, h1, h0, h2, h3, h4⟩ := ih (fun r hr => hrs r (by simp [hr])) it _ h
      refine ⟨none :: as, ?_, by simp [h0], ?_, ?_, ?_⟩
      · simp only [calls]; rw [e]; simp only [bind, Except.bind]; rw [h1]; rfl
      · exact h2
      · intro hc i hi
        have hc' : t.isLeaf = false ∨ ∀ r ∈ rs, ∀ k, r.valueError v k = none := hc.imp id (fun hc r hr => hc r (by simp [hr]))
        cases i with
        | zero => rfl
        | succ i => exact h3 hc' i (by simpa using hi)
      · intro i r' e' hr' he'
        cases i with
        | zero => simp at he'
        | succ i => exact h4 i r' e' (by simpa using hr') (by simpa using he')
    · obtain ⟨as, h1, h0, h2, h3, h4⟩ := ih (fun r hr => hrs r (by simp [hr])) it' E' h'
      have hE : (a :: E').filterMap (fun e => (f e.1).map (fun x => (e.1, x))) = (a.1, x) :: E'.filterMap (fun e => (f e.1).map (fun x => (e.1, x))) :=
        List.filterMap_cons_some (by rw [hx]; rfl)
      rw [hE]
      refine ⟨some (.ok (a.1, x)) :: as, ?_, by simp [h0], ?_, ?_, ?_⟩
      · simp only [calls]; rw [e]; simp only [bind, Except.bind]; rw [h1]; rfl
      · exact List.cons_prefix_cons.2 ⟨rfl, h2⟩
      · intro hc i hi
        have hc' : t.isLeaf = false ∨ ∀ r ∈ rs, ∀ k, r.valueError v k = none := hc.imp id (fun hc r hr => hc r (by simp [hr]))
        cases i with
        | zero => simp at hi
        | succ i => exact congrArg ((a.1, x) :: ·) (h3 hc' i (by simpa using hi))
      · intro i r' e' hr' he'
        cases i with
        | zero => simp at he'
        | succ i => exact h4 i r' e' (by simpa using hr') (by simpa using he')
    · rcases h' with h' | ⟨hc0, h'⟩
      · obtain ⟨as, h1, h0, h2, h3, h4⟩ := ih (fun r hr => hrs r (by simp [hr])) it' E h'
        refine ⟨some (.error (.err m)) :: as, ?_, by simp [h0], ?_, ?_, ?_⟩
        · simp only [calls]; rw [e]; simp only [bind, Except.bind]; rw [h1]; rfl
        · exact h2
        · intro hc i hi
          have hc' : t.isLeaf = false ∨ ∀ r ∈ rs, ∀ k, r.valueError v k = none := hc.imp id (fun hc r hr => hc r (by simp [hr]))
          cases i with
          | zero => simp at hi
          | succ i => exact h3 hc' i (by simpa using hi)
        · intro i r' e' hr' he'
          cases i with
          | zero => simp at hr' he'; subst hr'; subst he'; exact ⟨m, rfl, hm⟩
          | succ i => exact h4 i r' e' (by simpa using hr') (by simpa using he')
      · obtain ⟨as, h1, h0, h2, h3, h4⟩ := ih (fun r hr => hrs r (by simp [hr])) it' [] h'
        refine ⟨some (.error (.err m)) :: as, ?_, by simp [h0], ?_, ?_, ?_⟩
        · simp only [calls]; rw [e]; simp only [bind, Except.bind]; rw [h1]; rfl
        · have : pairs as = [] := List.prefix_nil.1 h2
          show pairs as <+: _
          rw [this]; exact List.nil_prefix
        · intro hc
          exact absurd (hc.imp id (fun hc => hc r (by simp))) hc0
        · intro i r' e' hr' he'
          cases i with
          | zero => simp at hr' he'; subst hr'; subst he'; exact ⟨m, rfl, hm⟩
          | succ i => exact h4 i r' e' (by simpa using hr') (by simpa using he')

end Verif.Jmt

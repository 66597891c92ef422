import Verif.Proofs.PmtPuts
import Verif.Proofs.PmtIter
/-!
Iterating over any database: the pairs that can be reached are yielded, each once.
-/

set_option autoImplicit false

namespace Verif.Pmt

open Spec (Shaped)

variable {db : Db}

/-- The value at the end of the path from the node. -/
def Bears (db : Db) (n : Node) (l : List Nib) (v : Bytes) : Prop := Gives db (n, leafPath l) (.ok (some v))

theorem bears_empty {l : List Nib} {v : Bytes} : ¬ Bears db .empty l v := fun h => by
  have := (gives_empty _ _).1 h
  cases this

theorem bears_leaf {k l : List Nib} {w v : Bytes} : Bears db (.leaf (leafPath k) w) l v ↔ l = k ∧ v = w := by
  unfold Bears
  rw [gives_leaf]
  constructor
  · intro h
    have h := Except.ok.inj h
    split at h
    · rename_i e
      exact ⟨(leafPath_inj.1 e).symm, Option.some.inj h⟩
    · cases h
  · rintro ⟨rfl, rfl⟩
    rw [if_pos rfl]

theorem bears_ext {c l : List Nib} {n : Node} {v : Bytes} : Bears db (.ext (toNibs c) n) l v ↔ ∃ l', l = c ++ l' ∧ Bears db n l' v := by
  unfold Bears
  by_cases h : toNibs c <+: leafPath l
  · obtain ⟨l', rfl⟩ := prefix_leafPath.1 h
    rw [leafPath_append, gives_ext]
    constructor
    · exact fun h => ⟨l', rfl, h⟩
    · rintro ⟨l2, e, h⟩
      rw [List.append_cancel_left e]
      exact h
  · rw [gives_ext_other _ h]
    constructor
    · intro h; cases h
    · rintro ⟨l', rfl, _⟩
      exact (h (prefix_leafPath.2 ⟨l', rfl⟩)).elim

theorem bears_branch {cs : Fin 16 → Node} {w : Option Bytes} {l : List Nib} {v : Bytes} :
    Bears db (.branch cs w) l v ↔ (l = [] ∧ w = some v) ∨ ∃ i l', l = i :: l' ∧ Bears db (cs i) l' v := by
  unfold Bears
  cases l with
  | nil =>
    show Gives db (_, [16]) _ ↔ _
    rw [gives_branch_value]
    constructor
    · intro h; exact .inl ⟨rfl, (Except.ok.inj h).symm⟩
    · rintro (⟨_, rfl⟩ | ⟨i, l', h, _⟩)
      · rfl
      · cases h
  | cons i l =>
    show Gives db (_, i.val :: leafPath l) _ ↔ _
    rw [gives_branch]
    constructor
    · exact fun h => .inr ⟨i, l, rfl, h⟩
    · rintro (⟨h, _⟩ | ⟨j, l', h, h'⟩)
      · cases h
      · cases h; exact h'

theorem bears_hash {x : H256} {n : Node} (h : fetch db x = .ok n) {l : List Nib} {v : Bytes} : Bears db (.hash x) l v ↔ Bears db n l v := by
  obtain ⟨b, hb, hn⟩ := fetch_ok_inv h
  exact gives_step (.hash hb hn) _

theorem bears_lost {x : H256} {e : Err} (h : fetch db x = .error e) {l : List Nib} {v : Bytes} : ¬ Bears db (.hash x) l v := fun hb => by
  have := (gives_end (.inr ⟨x, _, e, rfl, h, rfl⟩) _).1 hb
  cases this

/-- What is still to come of a node on the stack. -/
def Still (db : Db) (n : Node) : Status → List Nib → Bytes → Prop
  | .start, l, v => Bears db n l v
  | .doing, l, v => Bears db n l v
  | .child i, l, v => ∃ cs w, n = .branch cs w ∧ ∃ j l', i ≤ j.val ∧ l = j :: l' ∧ Bears db (cs j) l' v
  | .done, _, _ => False

/-- The path of the iterator, by the path to the node and how far it is. -/
def Stands (n : Node) (p : List Nib) (nib : Nibbles) : Status → Prop
  | .start => nib = toNibs p
  | .doing => nib = toNibs p
  | .child i => i ≤ 15 ∧ (∃ cs w, n = .branch cs w) ∧ if i = 0 then nib = toNibs p else ∃ c, nib = toNibs p ++ [c]
  | .done =>
    match n with
    | .leaf key _ => nib = toNibs p ++ key
    | .ext pre _ => nib = toNibs p ++ pre
    | .branch _ _ => ∃ c, nib = toNibs p ++ [c]
    | _ => nib = toNibs p

/-- The stack, the path, and the pairs to come. -/
inductive Stack (db : Db) : List (Node × Status) → Nibbles → (List Nib → Bytes → Prop) → Prop where
  | nil (nib : Nibbles) {R : List Nib → Bytes → Prop} (hR : ∀ l v, ¬ R l v) : Stack db [] nib R
  | cons {n : Node} {s : Status} {rest : List (Node × Status)} {nib : Nibbles} {R R' : List Nib → Bytes → Prop} (p : List Nib) (hn : Shaped n)
      (hs : Stands n p nib s) (hr : Stack db rest (toNibs p) R) (hd : ∀ l v, R l v → ∀ t, p ++ t < l)
      (hR : ∀ l v, R' l v ↔ R l v ∨ ∃ l', l = p ++ l' ∧ Still db n s l' v) : Stack db ((n, s) :: rest) nib R'

theorem Stack.congr {st : List (Node × Status)} {nib : Nibbles} {R R' : List Nib → Bytes → Prop} (h : Stack db st nib R)
    (he : ∀ l v, R' l v ↔ R l v) : Stack db st nib R' := by
  cases h with
  | nil _ hR => exact .nil _ fun l v h => hR l v ((he l v).1 h)
  | cons p hn hs hr hd hR => exact .cons p hn hs hr hd fun l v => (he l v).trans (hR l v)

/-- What a round makes of the pairs to come. -/
inductive RoundKeeps (db : Db) (R : List Nib → Bytes → Prop) : Round → Prop where
  | go {it : Iter} (h : Stack db it.nodes it.nibble R) : RoundKeeps db R (.go it)
  | pair {it : Iter} {v : Bytes} {R' : List Nib → Bytes → Prop} (l : List Nib) (h : Stack db it.nodes it.nibble R') (hl : ∀ l' v', R' l' v' → l < l')
      (hR : ∀ l' v', R l' v' ↔ (l' = l ∧ v' = v) ∨ R' l' v') : RoundKeeps db R (.pair it (pack l) v)
  | finish {it : Iter} (h : ∀ l v, ¬ R l v) : RoundKeeps db R (.none it)
  | stop {it : Iter} {x : H256} {b : Bytes} {m : String} (hb : db.get x = some b) (h : decodeNode b = .error (.err m)) : RoundKeeps db R (.none it)

theorem round_kept (hd : ∀ x n, fetch db x = .ok n → Shaped n) {it : Iter} {R : List Nib → Bytes → Prop} (h : Stack db it.nodes it.nibble R) {r : Round}
    (hr : it.round db = .ok r) : RoundKeeps db R r := by
  obtain ⟨nib, nodes⟩ := it
  dsimp only at h
  cases h with
  | nil _ hR =>
    cases hr
    exact .finish hR
  | @cons n s rest _ R0 _ p hn hs hst hdis hR =>
    cases s with
    | done =>
      have : Stack db rest (toNibs p) R := hst.congr fun l v => by
        rw [hR]
        constructor
        · rintro (h | ⟨_, _, h⟩)
          · exact h
          · exact h.elim
        · exact .inl
      simp only [Iter.round] at hr
      have hl : Iter.leave nib n = .ok (toNibs p) := by
        cases n with
        | empty => exact congrArg _ hs
        | hash => exact congrArg _ hs
        | leaf key w =>
          rw [show nib = toNibs p ++ key from hs]
          exact shorten_append _ _
        | ext pre m =>
          rw [show nib = toNibs p ++ pre from hs]
          exact shorten_append _ _
        | branch cs w =>
          obtain ⟨c, rfl⟩ := hs
          simp [Iter.leave]
      rw [hl] at hr
      cases hr
      exact .go this
    | start =>
      cases n with
      | empty =>
        cases hr
        refine .go ?_
        rw [show nib = toNibs p from hs]
        refine hst.congr fun l v => ?_
        rw [hR]
        constructor
        · rintro (h | ⟨_, _, h⟩)
          · exact h
          · exact (bears_empty h).elim
        · exact .inl
      | leaf => cases hr; exact .go (.cons p hn hs hst hdis hR)
      | ext => cases hr; exact .go (.cons p hn hs hst hdis hR)
      | branch => cases hr; exact .go (.cons p hn hs hst hdis hR)
      | hash => cases hr; exact .go (.cons p hn hs hst hdis hR)
    | child i =>
      obtain ⟨hi, ⟨cs, w, rfl⟩, hnib⟩ := hs
      have hlt : i < 16 := by omega
      simp only [Iter.round, hlt, dif_pos] at hr
      cases hr
      have hcs : ∀ j, Shaped (cs j) := by cases hn; assumption
      have he : (if i = 0 then nib else nib.dropLast) ++ [i] = toNibs (p ++ [⟨i, hlt⟩]) := by
        split at hnib
        · rename_i h0
          rw [if_pos h0, hnib]
          simp [toNibs]
        · rename_i h0
          rw [if_neg h0]
          obtain ⟨c, rfl⟩ := hnib
          simp [toNibs]
      have hst' : Stands (.branch cs w) p (toNibs (p ++ [⟨i, hlt⟩])) ((Status.child i).advance (.branch cs w)) := by
        have e : toNibs (p ++ [⟨i, hlt⟩]) = toNibs p ++ [i] := by simp [toNibs]
        simp only [Status.advance]
        split
        · exact ⟨by omega, ⟨cs, w, rfl⟩, by rw [if_neg (by omega)]; exact ⟨i, e⟩⟩
        · exact ⟨i, e⟩
      have hstill : ∀ l v, Still db (.branch cs w) ((Status.child i).advance (.branch cs w)) l v ↔
          ∃ j l', i + 1 ≤ j.val ∧ l = j :: l' ∧ Bears db (cs j) l' v := by
        intro l v
        simp only [Status.advance]
        split
        · constructor
          · rintro ⟨cs', w', e, h⟩
            cases e
            exact h
          · exact fun h => ⟨cs, w, rfl, h⟩
        · constructor
          · exact fun h => h.elim
          · rintro ⟨j, _, hj, _⟩
            have := j.isLt
            omega
      refine .go (.cons (R := fun l v => R0 l v ∨ ∃ l', l = p ++ l' ∧ Still db (.branch cs w) ((Status.child i).advance (.branch cs w)) l' v)
        (p ++ [(⟨i, hlt⟩ : Nib)]) (hcs _) he (.cons p hn hst' hst hdis fun _ _ => Iff.rfl) ?_ fun l v => ?_)
      · rintro l v (h | ⟨l', rfl, h⟩) t
        · rw [List.append_assoc]
          exact hdis l v h _
        · obtain ⟨j, l2, hj, rfl, _⟩ := (hstill _ _).1 h
          rw [List.append_assoc]
          exact List.append_left_lt (List.Lex.rel (Fin.lt_def.2 hj))
      · rw [hR]
        constructor
        · rintro (h | ⟨l', rfl, cs', w', e, j, l2, hj, rfl, hb⟩)
          · exact .inl (.inl h)
          · cases e
            by_cases hji : j.val = i
            · have : j = ⟨i, hlt⟩ := Fin.ext hji
              subst this
              exact .inr ⟨l2, by simp, hb⟩
            · exact .inl (.inr ⟨_, rfl, (hstill _ _).2 ⟨j, l2, by omega, rfl, hb⟩⟩)
        · rintro ((h | ⟨l', rfl, h⟩) | ⟨l', rfl, h⟩)
          · exact .inl h
          · obtain ⟨j, l2, hj, rfl, hb⟩ := (hstill _ _).1 h
            exact .inr ⟨_, rfl, cs, w, rfl, j, l2, by omega, rfl, hb⟩
          · exact .inr ⟨⟨i, hlt⟩ :: l', by simp, cs, w, rfl, ⟨i, hlt⟩, l', Nat.le_refl _, rfl, h⟩
    | doing =>
      have hs' : nib = toNibs p := hs
      subst hs'
      cases hn with
      | empty =>
        cases hr
        refine .go (hst.congr fun l v => ?_)
        rw [hR]
        constructor
        · rintro (h | ⟨_, _, h⟩)
          · exact h
          · exact (bears_empty h).elim
        · exact .inl
      | leaf k w =>
        have e : toNibs p ++ (k.map Fin.val ++ [16]) = leafPath (p ++ k) := by simp [leafPath, toNibs]
        simp only [Iter.round, e, encodeRaw_leafPath] at hr
        cases hr
        refine .pair (p ++ k) (R' := R0) (.cons p (.leaf k w) e.symm hst hdis fun l v => ?_) (fun l' v' h => hdis l' v' h k) fun l v => ?_
        · constructor
          · exact .inl
          · rintro (h | ⟨_, _, h⟩)
            · exact h
            · exact h.elim
        · rw [hR]
          constructor
          · rintro (h | ⟨l', rfl, h⟩)
            · exact .inr h
            · obtain ⟨rfl, rfl⟩ := bears_leaf.1 (h : Bears db (.leaf (leafPath k) w) l' v)
              exact .inl ⟨rfl, rfl⟩
          · rintro (⟨rfl, rfl⟩ | h)
            · exact .inr ⟨k, rfl, (bears_leaf.2 ⟨rfl, rfl⟩ : Bears db (.leaf (leafPath k) v) k v)⟩
            · exact .inl h
      | @ext c m hc hm =>
        cases hr
        have e : toNibs p ++ c.map Fin.val = toNibs (p ++ c) := by simp [toNibs]
        refine .go (.cons (R := R0) (p ++ c) hm e (.cons p (.ext hc hm) e.symm hst hdis fun l v => ?_)
          (fun l v h t => by rw [List.append_assoc]; exact hdis l v h _) fun l v => ?_)
        · constructor
          · exact .inl
          · rintro (h | ⟨_, _, h⟩)
            · exact h
            · exact h.elim
        · rw [hR]
          constructor
          · rintro (h | ⟨l', rfl, h⟩)
            · exact .inl h
            · obtain ⟨l2, rfl, h2⟩ := bears_ext.1 (h : Bears db (.ext (toNibs c) m) l' v)
              exact .inr ⟨l2, by simp, h2⟩
          · rintro (h | ⟨l', rfl, h⟩)
            · exact .inl h
            · exact .inr ⟨c ++ l', by simp, (bears_ext.2 ⟨l', rfl, h⟩ : Bears db (.ext (toNibs c) m) (c ++ l') v)⟩
      | @branch cs w hcs =>
        have hnext : Stands (.branch cs w) p (toNibs p) (.child 0) := ⟨by omega, ⟨cs, w, rfl⟩, by rw [if_pos rfl]⟩
        have hstill : ∀ l v, Still db (.branch cs w) (.child 0) l v ↔ ∃ j l', l = j :: l' ∧ Bears db (cs j) l' v := by
          intro l v
          constructor
          · rintro ⟨cs', w', e, j, l', _, h⟩
            cases e
            exact ⟨j, l', h⟩
          · rintro ⟨j, l', h⟩
            exact ⟨cs, w, rfl, j, l', Nat.zero_le _, h⟩
        cases w with
        | none =>
          cases hr
          refine .go (.cons p (.branch _ hcs) hnext hst hdis fun l v => ?_)
          rw [hR]
          refine or_congr Iff.rfl (exists_congr fun l' => and_congr Iff.rfl ?_)
          show Bears db _ _ _ ↔ Still db _ (.child 0) _ _
          rw [hstill, bears_branch]
          constructor
          · rintro (⟨_, h⟩ | h)
            · cases h
            · exact h
          · exact .inr
        | some w =>
          simp only [Iter.round] at hr
          by_cases hp : p = []
          · subst hp
            cases hr
          · rw [encodeRaw_toNibs hp] at hr
            cases hr
            refine .pair p (R' := fun l v => R0 l v ∨ ∃ l', l = p ++ l' ∧ Still db (.branch cs (some w)) (.child 0) l' v)
              (.cons p (.branch _ hcs) hnext hst hdis fun _ _ => Iff.rfl) ?_ fun l v => ?_
            · rintro l v' (h | ⟨l', rfl, h⟩)
              · simpa using hdis _ _ h []
              · obtain ⟨j, l2, rfl, _⟩ := (hstill _ _).1 h
                have : p ++ [] < p ++ (j :: l2) := List.append_left_lt List.Lex.nil
                simpa using this
            · rw [hR]
              constructor
              · rintro (h | ⟨l', rfl, h⟩)
                · exact .inr (.inl h)
                · rcases bears_branch.1 h with ⟨rfl, h2⟩ | h2
                  · exact .inl ⟨by simp, (Option.some.inj h2).symm⟩
                  · exact .inr (.inr ⟨l', rfl, (hstill _ _).2 h2⟩)
              · rintro (⟨rfl, rfl⟩ | h | ⟨l', rfl, h⟩)
                · exact .inr ⟨[], by simp, bears_branch.2 (.inl ⟨rfl, rfl⟩)⟩
                · exact .inl h
                · exact .inr ⟨l', rfl, bears_branch.2 (.inr ((hstill _ _).1 h))⟩
      | hash x =>
        simp only [Iter.round] at hr
        have gone : (∃ e, fetch db x = .error e) → Stack db rest (toNibs p) R := fun ⟨e, hf⟩ => hst.congr fun l v => by
          rw [hR]
          constructor
          · rintro (h | ⟨_, _, h⟩)
            · exact h
            · exact (bears_lost hf h).elim
          · exact .inl
        rcases hg : db.get x with _ | b
        · have hrec : recover db x = .ok none := by unfold recover; rw [hg]
          rw [hrec] at hr
          cases hr
          exact .go (gone ⟨_, fetch_missing hg⟩)
        · rcases hb : decodeNode b with e | n
          · have hrec : recover db x = .error e := by unfold recover; rw [hg]; simp only [hb]; rfl
            rw [hrec] at hr
            cases e with
            | err m => cases hr; exact .stop hg hb
            | panic m => cases hr
          · have hrec : recover db x = .ok (some n) := by unfold recover; rw [hg]; simp only [hb]; rfl
            rw [hrec] at hr
            cases hr
            have hf := fetch_ok hg hb
            refine .go (.cons p (hd x n hf) rfl hst hdis fun l v => ?_)
            rw [hR]
            exact or_congr Iff.rfl (exists_congr fun l' => and_congr Iff.rfl (bears_hash hf))

/-- What a call of `next` makes of the pairs to come. -/
inductive Given (db : Db) (R : List Nib → Bytes → Prop) : Iter × Option (Bytes × Bytes) → Prop where
  | pair {it : Iter} {v : Bytes} {R' : List Nib → Bytes → Prop} (l : List Nib) (h : Stack db it.nodes it.nibble R') (hl : ∀ l' v', R' l' v' → l < l')
      (hR : ∀ l' v', R l' v' ↔ (l' = l ∧ v' = v) ∨ R' l' v') : Given db R (it, some (pack l, v))
  | finish {it : Iter} (h : ∀ l v, ¬ R l v) : Given db R (it, none)
  | stop {it : Iter} {x : H256} {b : Bytes} {m : String} (hb : db.get x = some b) (h : decodeNode b = .error (.err m)) : Given db R (it, none)

theorem next_given (hd : ∀ x n, fetch db x = .ok n → Shaped n) (fuel : Nat) {it : Iter} {R : List Nib → Bytes → Prop}
    (h : Stack db it.nodes it.nibble R) {r : Iter × Option (Bytes × Bytes)} (hr : it.next db fuel = .ok r) : Given db R r := by
  induction fuel generalizing it with
  | zero => cases hr
  | succ f ih =>
    unfold Iter.next at hr
    rcases hro : it.round db with e | r'
    · rw [hro] at hr; cases hr
    · rw [hro] at hr
      have hk := round_kept hd h hro
      cases hk with
      | go h' => exact ih h' hr
      | pair l h' hl hR => cases hr; exact .pair l h' hl hR
      | finish h' => cases hr; exact .finish h'
      | stop hb h' => cases hr; exact .stop hb h'

/-- What is collected: the pairs to come, each once, or some of them if bytes cannot be decoded. -/
theorem collect_given (hd : ∀ x n, fetch db x = .ok n → Shaped n) (fuel calls : Nat) {it : Iter} {R : List Nib → Bytes → Prop}
    (h : Stack db it.nodes it.nibble R) {L : List (Bytes × Bytes)} (hr : it.collect db fuel calls = .ok L) :
    ∃ ps : List (List Nib × Bytes), L = ps.map (fun x => (pack x.1, x.2)) ∧ (ps.map Prod.fst).Pairwise (· < ·) ∧ (∀ x ∈ ps, R x.1 x.2) ∧
      (∀ l v, R l v → (l, v) ∈ ps ∨ ∀ x ∈ ps, x.1 < l) ∧
      ((∀ l v, R l v → (l, v) ∈ ps) ∨ ∃ x b m, db.get x = some b ∧ decodeNode b = .error (.err m)) := by
  induction calls generalizing it R L with
  | zero => cases hr
  | succ c ih =>
    unfold Iter.collect at hr
    rcases hn : it.next db fuel with e | r
    · rw [hn] at hr; cases hr
    · rw [hn] at hr
      have hg := next_given hd fuel h hn
      cases hg with
      | finish h' =>
        cases hr
        exact ⟨[], rfl, List.Pairwise.nil, fun x hx => (nomatch hx), fun _ _ _ => .inr fun x hx => (nomatch hx), .inl fun l v hl => (h' l v hl).elim⟩
      | stop hb h' =>
        cases hr
        exact ⟨[], rfl, List.Pairwise.nil, fun x hx => (nomatch hx), fun _ _ _ => .inr fun x hx => (nomatch hx), .inr ⟨_, _, _, hb, h'⟩⟩
      | @pair it' v R' l h' hl hR =>
        dsimp only at hr
        rcases hc : it'.collect db fuel c with e | L'
        · rw [hc] at hr; cases hr
        · rw [hc] at hr
          cases hr
          obtain ⟨ps, rfl, i2, i3, i5, i4⟩ := ih h' hc
          refine ⟨(l, v) :: ps, rfl, ?_, ?_, ?_, ?_⟩
          · rw [List.map_cons, List.pairwise_cons]
            refine ⟨fun l' hm => ?_, i2⟩
            obtain ⟨x, hx, rfl⟩ := List.mem_map.1 hm
            exact hl _ _ (i3 x hx)
          · intro x hx
            rcases List.mem_cons.1 hx with rfl | hx
            · exact (hR _ _).2 (.inl ⟨rfl, rfl⟩)
            · exact (hR _ _).2 (.inr (i3 x hx))
          · intro l' v' hl'
            rcases (hR _ _).1 hl' with ⟨rfl, rfl⟩ | hl'
            · exact .inl List.mem_cons_self
            · rcases i5 _ _ hl' with h | h
              · exact .inl (List.mem_cons_of_mem _ h)
              · refine .inr fun x hx => ?_
                rcases List.mem_cons.1 hx with rfl | hx
                · exact hl _ _ hl'
                · exact h x hx
          · refine i4.imp (fun i4 l' v' hl' => ?_) id
            rcases (hR _ _).1 hl' with ⟨rfl, rfl⟩ | hl'
            · exact List.mem_cons_self
            · exact List.mem_cons_of_mem _ (i4 _ _ hl')

theorem values_given (hd : ∀ x n, fetch db x = .ok n → Shaped n) {tr : Trie} (ht : Shaped tr.root) {fuel : Nat} {L : List (Bytes × Bytes)}
    (hr : tr.values fuel db = .ok L) :
    ∃ ps : List (List Nib × Bytes), L = ps.map (fun x => (pack x.1, x.2)) ∧ (ps.map Prod.fst).Pairwise (· < ·) ∧ (∀ x ∈ ps, Bears db tr.root x.1 x.2) ∧
      (∀ l v, Bears db tr.root l v → (l, v) ∈ ps ∨ ∀ x ∈ ps, x.1 < l) ∧
      ((∀ l v, Bears db tr.root l v → (l, v) ∈ ps) ∨ ∃ x b m, db.get x = some b ∧ decodeNode b = .error (.err m)) :=
  collect_given hd fuel fuel (it := Iter.new tr)
    (.cons (R := fun _ _ => False) [] ht rfl (.nil _ fun _ _ h => h) (fun _ _ h => h.elim) fun l v => by
      constructor
      · exact fun h => .inr ⟨l, rfl, h⟩
      · rintro (h | ⟨l', rfl, h⟩)
        · exact h.elim
        · exact h) hr

/-- When a round panics. -/
theorem round_fails {it : Iter} {R : List Nib → Bytes → Prop} (h : Stack db it.nodes it.nibble R) {e : Err} (hr : it.round db = .error e) :
    (∃ x b m, db.get x = some b ∧ decodeNode b = .error (.panic m) ∧ e = .panic m) ∨ ∃ v, R [] v := by
  obtain ⟨nib, nodes⟩ := it
  dsimp only at h
  cases h with
  | nil => cases hr
  | @cons n s rest _ R0 _ p hn hs hst hdis hR =>
    cases s with
    | done =>
      simp only [Iter.round] at hr
      have hl : Iter.leave nib n = .ok (toNibs p) := by
        cases n with
        | empty => exact congrArg _ hs
        | hash => exact congrArg _ hs
        | leaf key w =>
          rw [show nib = toNibs p ++ key from hs]
          exact shorten_append _ _
        | ext pre m =>
          rw [show nib = toNibs p ++ pre from hs]
          exact shorten_append _ _
        | branch cs w =>
          obtain ⟨c, rfl⟩ := hs
          simp [Iter.leave]
      rw [hl] at hr
      cases hr
    | start => cases n <;> cases hr
    | child i =>
      obtain ⟨hi, ⟨cs, w, rfl⟩, hnib⟩ := hs
      have hlt : i < 16 := by omega
      simp only [Iter.round, hlt, dif_pos] at hr
      cases hr
    | doing =>
      have hs' : nib = toNibs p := hs
      subst hs'
      cases hn with
      | empty => cases hr
      | leaf k w =>
        have e : toNibs p ++ (k.map Fin.val ++ [16]) = leafPath (p ++ k) := by simp [leafPath, toNibs]
        simp only [Iter.round, e, encodeRaw_leafPath] at hr
        cases hr
      | ext => cases hr
      | @branch cs w hcs =>
        cases w with
        | none => cases hr
        | some w =>
          by_cases hp : p = []
          · subst hp
            exact .inr ⟨w, (hR _ _).2 (.inr ⟨[], rfl, bears_branch.2 (.inl ⟨rfl, rfl⟩)⟩)⟩
          · simp only [Iter.round, encodeRaw_toNibs hp] at hr
            cases hr
      | hash x =>
        simp only [Iter.round] at hr
        rcases hg : db.get x with _ | b
        · have hrec : recover db x = .ok none := by unfold recover; rw [hg]
          rw [hrec] at hr
          cases hr
        · rcases hb : decodeNode b with e' | n
          · have hrec : recover db x = .error e' := by unfold recover; rw [hg]; simp only [hb]; rfl
            rw [hrec] at hr
            cases e' with
            | err m => cases hr
            | panic m => cases hr; exact .inl ⟨x, b, m, hg, hb, rfl⟩
          · have hrec : recover db x = .ok (some n) := by unfold recover; rw [hg]; simp only [hb]; rfl
            rw [hrec] at hr
            cases hr

theorem next_fails (hd : ∀ x n, fetch db x = .ok n → Shaped n) (fuel : Nat) {it : Iter} {R : List Nib → Bytes → Prop}
    (h : Stack db it.nodes it.nibble R) {e : Err} (hr : it.next db fuel = .error e) :
    e = .panic "out of fuel" ∨ (∃ x b m, db.get x = some b ∧ decodeNode b = .error (.panic m) ∧ e = .panic m) ∨ ∃ v, R [] v := by
  induction fuel generalizing it with
  | zero => cases hr; exact .inl rfl
  | succ f ih =>
    unfold Iter.next at hr
    rcases hro : it.round db with e' | r'
    · rw [hro] at hr
      cases hr
      exact .inr (round_fails h hro)
    · rw [hro] at hr
      have hk := round_kept hd h hro
      cases hk with
      | go h' => exact ih h' hr
      | pair => cases hr
      | finish => cases hr
      | stop => cases hr

theorem collect_fails (hd : ∀ x n, fetch db x = .ok n → Shaped n) (fuel calls : Nat) {it : Iter} {R : List Nib → Bytes → Prop}
    (h : Stack db it.nodes it.nibble R) {e : Err} (hr : it.collect db fuel calls = .error e) :
    e = .panic "out of fuel" ∨ (∃ x b m, db.get x = some b ∧ decodeNode b = .error (.panic m) ∧ e = .panic m) ∨ ∃ v, R [] v := by
  induction calls generalizing it R with
  | zero => cases hr; exact .inl rfl
  | succ c ih =>
    unfold Iter.collect at hr
    rcases hn : it.next db fuel with e' | r
    · rw [hn] at hr
      cases hr
      exact next_fails hd fuel h hn
    · rw [hn] at hr
      have hg := next_given hd fuel h hn
      cases hg with
      | finish => cases hr
      | stop => cases hr
      | @pair it' v R' l h' hl hR =>
        dsimp only at hr
        rcases hc : it'.collect db fuel c with e' | L'
        · rw [hc] at hr
          cases hr
          rcases ih h' hc with h | h | ⟨v, h⟩
          · exact .inl h
          · exact .inr (.inl h)
          · exact .inr (.inr ⟨v, (hR _ _).2 (.inr h)⟩)
        · rw [hc] at hr
          cases hr

theorem values_fails (hd : ∀ x n, fetch db x = .ok n → Shaped n) {tr : Trie} (ht : Shaped tr.root) {fuel : Nat} {e : Err}
    (hr : tr.values fuel db = .error e) :
    e = .panic "out of fuel" ∨ (∃ x b m, db.get x = some b ∧ decodeNode b = .error (.panic m) ∧ e = .panic m) ∨ ∃ v, Bears db tr.root [] v :=
  collect_fails hd fuel fuel (it := Iter.new tr)
    (.cons (R := fun _ _ => False) [] ht rfl (.nil _ fun _ _ h => h) (fun _ _ h => h.elim) fun l v => by
      constructor
      · exact fun h => .inr ⟨l, rfl, h⟩
      · rintro (h | ⟨l', rfl, h⟩)
        · exact h.elim
        · exact h) hr

end Verif.Pmt

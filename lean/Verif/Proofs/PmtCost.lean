import Verif.Proofs.PmtLoad
import Verif.Proofs.PmtTwin
/-!
Which entries of the database an operation reads, and how many.
-/

set_option autoImplicit false

namespace Verif.Pmt

open PT

variable {K : Keccak} {S : Bytes → Prop} {db db' : Db}

/-- Two databases have the same under some hashes. -/
def Agree (db db' : Db) (L : List H256) : Prop := ∀ h ∈ L, db'.get h = db.get h

theorem Agree.fetch {L : List H256} (h : Agree db db' L) {x : H256} (hx : x ∈ L) : Pmt.fetch db' x = Pmt.fetch db x := by
  unfold Pmt.fetch recover
  rw [h x hx]

theorem Agree.left {L L' : List H256} (h : Agree db db' (L ++ L')) : Agree db db' L := fun x hx => h x (List.mem_append_left _ hx)

theorem Agree.right {L L' : List H256} (h : Agree db db' (L ++ L')) : Agree db db' L' := fun x hx => h x (List.mem_append_right _ hx)

theorem agree_refl (L : List H256) : Agree db db L := fun _ _ => rfl

/-! ### get -/

/-- What `get` reads. -/
def GetReads (db : Db) (n : Node) (p : Nibbles) (v : Option Bytes) (N : Nat) : Prop :=
  ∃ L : List H256, L.length ≤ N ∧ ∀ db' f, Agree db db' L → N ≤ f → getAt db' f n p = .ok v

theorem getAt_reads_held (hR : Reads K S db) {t : PT} (hok : Ok t (2 ^ 60)) (h : Held K S t) {p : List Nib}
    (ih : GetReads db (top K t) (leafPath p) (t.get p) p.length) : GetReads db (.hash (K (enc K t))) (leafPath p) (t.get p) (p.length + 1) := by
  obtain ⟨L, h1, h2⟩ := ih
  refine ⟨K (enc K t) :: L, by simpa using h1, fun db' f ha hf => ?_⟩
  cases f with
  | zero => omega
  | succ f =>
    rw [getAt_hash, ha.fetch List.mem_cons_self, fetch_held hR h hok]
    exact h2 db' f (fun x hx => ha x (List.mem_cons_of_mem _ hx)) (by omega)

theorem getAt_reads {t : PT} (hR : Reads K S db) (hok : Ok t (2 ^ 60)) (n : Node) (p : List Nib) (h : Rep K S n t) (hn : ¬ IsHash n) :
    GetReads db n (leafPath p) (t.get p) p.length := by
  induction t generalizing n p with
  | empty =>
    cases h with
    | empty => exact ⟨[], Nat.zero_le _, fun db' f _ hf => getAt_node (K := K) (S := fun _ => False) (fun _ h => h.elim) hok _ f p .empty id hf⟩
    | hash => exact absurd trivial hn
  | leaf k v =>
    cases h with
    | leaf => exact ⟨[], Nat.zero_le _, fun db' f _ hf => getAt_node (K := K) (S := fun _ => False) (fun _ h => h.elim) hok _ f p (.leaf k v) id hf⟩
    | hash => exact absurd trivial hn
  | ext q s ih =>
    cases h with
    | hash => exact absurd trivial hn
    | ext _ h =>
      rename_i m
      have hok' := ok_sub hok
      have hq0 : 0 < q.length := List.length_pos_iff.2 hok.1
      by_cases hq : lcp p q = q.length
      · have hq' := hq
        obtain ⟨r, rfl⟩ := lcp_eq_length.1 hq
        have key : GetReads db m (leafPath r) (s.get r) (r.length + 1) := by
          by_cases hm : IsHash m
          · cases h with
            | hash hl h => exact getAt_reads_held hR hok' h (ih hok' _ r (rep_top h.2) (top_not_hash s))
            | _ => exact hm.elim
          · obtain ⟨L, h1, h2⟩ := ih hok' m r h hm
            exact ⟨L, by omega, fun db' f ha hf => h2 db' f ha (by omega)⟩
        obtain ⟨L, h1, h2⟩ := key
        have hl : r.length + 1 ≤ (q ++ r).length := by rw [List.length_append]; omega
        refine ⟨L, by omega, fun db' f ha hf => ?_⟩
        rw [getAt_ext, if_pos hq', List.drop_left' rfl, h2 db' f ha (by omega)]
        simp only [PT.get, hq', if_true, List.drop_left']
      · refine ⟨[], Nat.zero_le _, fun db' f _ _ => ?_⟩
        rw [getAt_ext, if_neg hq]
        simp only [PT.get, hq, if_false]
  | branch cs w ih =>
    cases h with
    | hash => exact absurd trivial hn
    | branch _ h =>
      rename_i ns
      cases p with
      | nil => exact ⟨[], Nat.zero_le _, fun db' f _ _ => getAt_branch_nil f ns w⟩
      | cons i r =>
        have hok' := ok_child hok i
        have key : GetReads db (ns i) (leafPath r) ((cs i).get r) (r.length + 1) := by
          have hi := h i
          by_cases hm : IsHash (ns i)
          · generalize ns i = m at *
            generalize hc : cs i = c at *
            cases hi with
            | hash hl hh =>
              subst hc
              exact getAt_reads_held hR hok' hh (ih i hok' _ r (rep_top hh.2) (top_not_hash _))
            | _ => exact hm.elim
          · obtain ⟨L, h1, h2⟩ := ih i hok' (ns i) r hi hm
            exact ⟨L, by omega, fun db' f ha hf => h2 db' f ha (by omega)⟩
        obtain ⟨L, h1, h2⟩ := key
        exact ⟨L, h1, fun db' f ha hf => by rw [getAt_branch_cons]; exact h2 db' f ha hf⟩

theorem getAt_reads_root {t : PT} (hR : Reads K S db) (hok : Ok t (2 ^ 60)) {n : Node} {p : List Nib} (h : RepRoot K S n t) :
    GetReads db n (leafPath p) (t.get p) (p.length + 1) := by
  have hash := fun (h : Held K S t) => getAt_reads_held hR hok h (getAt_reads hR hok _ p (rep_top h.2) (top_not_hash t))
  cases h with
  | hash h => exact hash h
  | node h =>
    by_cases hm : IsHash n
    · cases h with
      | hash hl h => exact hash h
      | _ => exact hm.elim
    · obtain ⟨L, h1, h2⟩ := getAt_reads hR hok n p h hm
      exact ⟨L, by omega, fun db' f ha hf => h2 db' f ha (by omega)⟩

/-! ### insert -/

/-- If a call succeeds, then it passes at most as many hash nodes as are allowed. -/
theorem insertStep_len_ok {hop : H256 → Nibbles → Out Node} {N : Nat} (hh : ∀ h p a, (hop h p).2 = .ok a → (hop h p).1.length ≤ N) {v : Bytes} {n m : Node}
    {p : Nibbles} (h : (insertStep hop v n p).2 = .ok m) : (insertStep hop v n p).1.length ≤ N := by
  induction n generalizing p m with
  | empty => exact Nat.zero_le _
  | leaf k w => exact Nat.zero_le _
  | hash x => exact hh x p m h
  | branch cs w ih =>
    cases p with
    | nil => exact Nat.zero_le _
    | cons x t =>
      simp only [insertStep] at h ⊢
      split
      · exact Nat.zero_le _
      · next hx =>
        rw [if_neg hx] at h
        split
        · next hx' =>
          rw [dif_pos hx'] at h
          rcases hc : (insertStep hop v (cs ⟨x, hx'⟩) t).2 with e | c
          · simp only [Out.map, hc] at h; cases h
          · exact ih _ hc
        · exact Nat.zero_le _
  | ext q s ih =>
    simp only [insertStep] at h ⊢
    split
    · exact Nat.zero_le _
    · next h0 =>
      rw [if_neg h0] at h
      split
      · next h1 =>
        rw [if_pos h1] at h
        rcases hc : (insertStep hop v s (p.drop (Nibbles.commonPrefix p q))).2 with e | c
        · simp only [Out.map, hc] at h; cases h
        · exact ih hc
      · exact Nat.zero_le _

theorem insertAt_len_ok {v : Bytes} {fuel : Nat} {n m : Node} {p : Nibbles} (h : (insertAt db v fuel n p).2 = .ok m) :
    (insertAt db v fuel n p).1.length ≤ fuel := by
  induction fuel generalizing n m p with
  | zero => exact insertStep_len_ok (fun h p a ha => by cases ha) h
  | succ f ih =>
    refine insertStep_len_ok (fun x p a ha => ?_) h
    rcases hx : fetch db x with e | c
    · rw [hx] at ha; cases ha
    · rw [hx] at ha
      have := ih (show (insertAt db v f c p).2 = .ok a from ha)
      show ([x] ++ (insertAt db v f c p).1).length ≤ f + 1
      rw [List.length_append, List.length_singleton]
      omega

/-- A successful call does the same on a database with the same nodes under the hashes passed, if as many hash nodes may be passed. -/
theorem insertStep_agree {hop hop' : H256 → Nibbles → Out Node} {L : List H256}
    (hh : ∀ h p a, (hop h p).2 = .ok a → (∀ x ∈ (hop h p).1, x ∈ L) → hop' h p = hop h p) {v : Bytes} {n m : Node} {p : Nibbles}
    (h : (insertStep hop v n p).2 = .ok m) (hL : ∀ x ∈ (insertStep hop v n p).1, x ∈ L) : insertStep hop' v n p = insertStep hop v n p := by
  induction n generalizing p m with
  | empty => rfl
  | leaf k w => rfl
  | hash x => exact hh x p m h hL
  | branch cs w ih =>
    cases p with
    | nil => rfl
    | cons x t =>
      simp only [insertStep] at h hL ⊢
      split
      · rfl
      · next hx =>
        rw [if_neg hx] at h hL
        split
        · next hx' =>
          rw [dif_pos hx'] at h hL
          rcases hc : (insertStep hop v (cs ⟨x, hx'⟩) t).2 with e | c
          · simp only [Out.map, hc] at h; cases h
          · rw [ih _ hc hL]
        · rfl
  | ext q s ih =>
    simp only [insertStep] at h hL ⊢
    split
    · rfl
    · next h0 =>
      rw [if_neg h0] at h hL
      split
      · next h1 =>
        rw [if_pos h1] at h hL
        rcases hc : (insertStep hop v s (p.drop (Nibbles.commonPrefix p q))).2 with e | c
        · simp only [Out.map, hc] at h; cases h
        · rw [ih hc hL]
      · rfl

theorem insertAt_agree {L : List H256} (ha : Agree db db' L) {v : Bytes} {fuel fuel' : Nat} (hf : fuel ≤ fuel') {n m : Node} {p : Nibbles}
    (h : (insertAt db v fuel n p).2 = .ok m) (hL : ∀ x ∈ (insertAt db v fuel n p).1, x ∈ L) :
    insertAt db' v fuel' n p = insertAt db v fuel n p := by
  induction fuel generalizing n m p fuel' with
  | zero =>
    cases fuel' with
    | zero => exact insertStep_agree (fun h p a hok => by cases hok) h hL
    | succ f' => exact insertStep_agree (fun h p a hok => by cases hok) h hL
  | succ f ih =>
    cases fuel' with
    | zero => omega
    | succ f' =>
      refine insertStep_agree (fun x p a hok hx => ?_) h hL
      rcases hc : fetch db x with e | c
      · rw [hc] at hok; cases hok
      · rw [hc] at hok hx
        have hx1 : x ∈ L := hx x List.mem_cons_self
        rw [ha.fetch hx1, hc]
        have := ih (fuel' := f') (by omega) (show (insertAt db v f c p).2 = .ok a from hok) (fun y hy => hx y (List.mem_cons_of_mem _ hy))
        show ([x] ++ (insertAt db' v f' c p).1, (insertAt db' v f' c p).2) = ([x] ++ (insertAt db v f c p).1, (insertAt db v f c p).2)
        rw [this]

/-! ### Proofs -/

/-- What `pathAt` does with hash nodes. -/
def pathHop (db : Db) : Nat → H256 → Nibbles → Res (List Node)
  | 0 => fun _ _ => .error (.panic "endless recursion")
  | fuel + 1 => fun h p => do
      let n ← fetch db h
      let rest ← pathAt db fuel n p
      pure (rest ++ [n])

theorem pathAt_eq (fuel : Nat) : pathAt db fuel = pathStep (pathHop db fuel) := by cases fuel <;> rfl

theorem pathStep_reads {ι : Type} {hop : H256 → Nibbles → Res (List Node)} {hop' : ι → H256 → Nibbles → Res (List Node)} {good : ι → List H256 → Prop}
    {N : Nat} (hh : ∀ h p l, hop h p = .ok l → ∃ L : List H256, L.length ≤ N ∧ l.length ≤ N ∧ ∀ i, good i L → hop' i h p = .ok l) {n : Node}
    {p : Nibbles} {l : List Node} (h : pathStep hop n p = .ok l) :
    ∃ L : List H256, L.length ≤ N ∧ l.length ≤ N ∧ ∀ i, good i L → pathStep (hop' i) n p = .ok l := by
  induction n generalizing p with
  | empty => cases h; exact ⟨[], Nat.zero_le _, Nat.zero_le _, fun _ _ => rfl⟩
  | leaf k v => cases h; exact ⟨[], Nat.zero_le _, Nat.zero_le _, fun _ _ => rfl⟩
  | hash x => exact hh x p l h
  | branch cs v ih =>
    cases p with
    | nil => cases h; exact ⟨[], Nat.zero_le _, Nat.zero_le _, fun _ _ => rfl⟩
    | cons x t =>
      simp only [pathStep] at h ⊢
      by_cases h1 : x = 16
      · simp only [h1, if_true] at h ⊢
        cases h
        exact ⟨[], Nat.zero_le _, Nat.zero_le _, fun _ _ => rfl⟩
      · simp only [h1, if_false] at h ⊢
        by_cases h2 : x < 16
        · simp only [h2, dite_true] at h ⊢
          exact ih _ h
        · simp only [h2, dite_false] at h
          cases h
  | ext q s ih =>
    simp only [pathStep] at h ⊢
    by_cases h1 : Nibbles.commonPrefix p q = q.length
    · simp only [h1, if_true] at h ⊢
      exact ih h
    · simp only [h1, if_false] at h ⊢
      cases h
      exact ⟨[], Nat.zero_le _, Nat.zero_le _, fun _ _ => rfl⟩

theorem pathAt_reads {fuel : Nat} {n : Node} {p : Nibbles} {l : List Node} (h : pathAt db fuel n p = .ok l) :
    ∃ L : List H256, L.length ≤ fuel ∧ l.length ≤ fuel ∧ ∀ db' f, Agree db db' L → fuel ≤ f → pathAt db' f n p = .ok l := by
  induction fuel generalizing n p l with
  | zero =>
    obtain ⟨L, h1, h2, h3⟩ := pathStep_reads (ι := Db × Nat) (hop' := fun i => pathHop i.1 i.2) (good := fun i L => Agree db i.1 L ∧ 0 ≤ i.2) (N := 0)
      (fun h p l hl => by cases hl) h
    exact ⟨L, h1, h2, fun db' f ha hf => by rw [pathAt_eq]; exact h3 (db', f) ⟨ha, hf⟩⟩
  | succ fuel ih =>
    have hh : ∀ x p l, pathHop db (fuel + 1) x p = .ok l → ∃ L : List H256, L.length ≤ fuel + 1 ∧ l.length ≤ fuel + 1 ∧
        ∀ i : Db × Nat, (Agree db i.1 L ∧ fuel + 1 ≤ i.2) → pathHop i.1 i.2 x p = .ok l := by
      intro x p l hl
      simp only [pathHop] at hl
      rcases hc : fetch db x with e | c
      · rw [hc] at hl; cases hl
      · rw [hc] at hl
        simp only [Res.ok_bind] at hl
        rcases hr : pathAt db fuel c p with e | rest
        · rw [hr] at hl; cases hl
        · rw [hr] at hl
          cases hl
          obtain ⟨L, g1, g2, g3⟩ := ih hr
          refine ⟨x :: L, by simpa using g1, by simpa using g2, fun i hi => ?_⟩
          obtain ⟨db', f⟩ := i
          obtain ⟨ha, hf⟩ := hi
          cases f with
          | zero => simp only at hf; omega
          | succ f =>
            simp only at ha hf
            simp only [pathHop]
            rw [ha.fetch List.mem_cons_self, hc]
            simp only [Res.ok_bind]
            rw [g3 db' f (fun y hy => ha y (List.mem_cons_of_mem _ hy)) (by omega)]
            rfl
    obtain ⟨L, h1, h2, h3⟩ := pathStep_reads hh h
    exact ⟨L, h1, h2, fun db' f ha hf => by rw [pathAt_eq]; exact h3 (db', f) ⟨ha, hf⟩⟩

/-! ### remove -/

/-- A node that `degenerate` leaves as it is, without reading anything. -/
def Settled (n : Node) : Prop := ∀ db, degenerate db n = ([], .ok n)

theorem settled_leaf (k : Nibbles) (v : Bytes) : Settled (.leaf k v) := fun _ => rfl

theorem degenerateExtAt_props {fuel : Nat} {p : Nibbles} {n m : Node} (h : (degenerateExtAt db fuel p n).2 = .ok m) :
    (degenerateExtAt db fuel p n).1.length ≤ fuel ∧ (∀ x ∈ (degenerateExtAt db fuel p n).1, (db.get x).isSome) ∧ Settled m ∧
    ∀ db' fuel', Agree db db' (degenerateExtAt db fuel p n).1 → (degenerateExtAt db fuel p n).1.length ≤ fuel' →
      degenerateExtAt db' fuel' p n = degenerateExtAt db fuel p n := by
  induction fuel generalizing p n with
  | zero =>
    induction n generalizing p with
    | empty => cases h; exact ⟨Nat.zero_le _, fun x hx => (by cases hx), fun _ => rfl, fun db' f _ _ => by cases f <;> rfl⟩
    | leaf k v => cases h; exact ⟨Nat.zero_le _, fun x hx => (by cases hx), fun _ => rfl, fun db' f _ _ => by cases f <;> rfl⟩
    | branch cs v => cases h; exact ⟨Nat.zero_le _, fun x hx => (by cases hx), fun _ => rfl, fun db' f _ _ => by cases f <;> rfl⟩
    | hash x => cases h
    | ext q s ih =>
      obtain ⟨h1, h2, h3, h4⟩ := ih (p := p ++ q) h
      refine ⟨h1, h2, h3, fun db' f ha hf => ?_⟩
      have := h4 db' f ha hf
      cases f <;> exact this
  | succ fuel ihf =>
    induction n generalizing p with
    | empty => cases h; exact ⟨Nat.zero_le _, fun x hx => (by cases hx), fun _ => rfl, fun db' f _ _ => by cases f <;> rfl⟩
    | leaf k v => cases h; exact ⟨Nat.zero_le _, fun x hx => (by cases hx), fun _ => rfl, fun db' f _ _ => by cases f <;> rfl⟩
    | branch cs v => cases h; exact ⟨Nat.zero_le _, fun x hx => (by cases hx), fun _ => rfl, fun db' f _ _ => by cases f <;> rfl⟩
    | ext q s ih =>
      obtain ⟨h1, h2, h3, h4⟩ := ih (p := p ++ q) h
      refine ⟨h1, h2, h3, fun db' f ha hf => ?_⟩
      have := h4 db' f ha hf
      cases f <;> exact this
    | hash x =>
      have e : ∀ (db : Db) (f : Nat), degenerateExtAt db (f + 1) p (.hash x)
        = Out.andThen ([x], fetch db x) (fun n => degenerateExtAt db f p n) := fun _ _ => rfl
      rw [e] at h
      rcases hx : fetch db x with e1 | c
      · rw [hx] at h; cases h
      · rw [hx] at h
        obtain ⟨h1, h2, h3, h4⟩ := ihf (p := p) (n := c) h
        have hr : degenerateExtAt db (fuel + 1) p (.hash x) = (x :: (degenerateExtAt db fuel p c).1, (degenerateExtAt db fuel p c).2) := by
          rw [e, hx]; rfl
        rw [hr]
        refine ⟨by simpa using h1, ?_, h3, ?_⟩
        · intro y hy
          rcases List.mem_cons.1 hy with rfl | hy
          · unfold fetch recover at hx
            rcases hg : db.get y with _ | b
            · rw [hg] at hx; cases hx
            · rfl
          · exact h2 y hy
        · intro db' f ha hf
          cases f with
          | zero => simp at hf
          | succ f =>
            rw [e, ha.fetch List.mem_cons_self, hx]
            have := h4 db' f (fun y hy => ha y (List.mem_cons_of_mem _ hy)) (by simpa using hf)
            show ([x] ++ (degenerateExtAt db' f p c).1, (degenerateExtAt db' f p c).2) = _
            rw [this]
            rfl

theorem degenerateExt_two (hR : Reads K S db) {t : PT} (hok : Ok t (2 ^ 60)) {n : Node} (h : Rep K S n t) (p : List Nib) :
    Inserted K S (degenerateExtAt db 2 (toNibs p) n) (degExt p t) := by
  by_cases hn : IsHash n
  · cases h with
    | hash hl h =>
      have e : degenerateExtAt db 2 (toNibs p) (.hash (K (enc K t)))
        = Out.andThen ([K (enc K t)], fetch db (K (enc K t))) (fun n => degenerateExtAt db 1 (toNibs p) n) := rfl
      rw [e, fetch_held hR h hok]
      obtain ⟨m, h1, h2⟩ := degenerateExt_node hR hok (rep_top h.2) (top_not_hash t) 1 (Nat.le_refl _) p
      exact ⟨m, h1, h2⟩
    | _ => exact hn.elim
  · exact degenerateExt_node hR hok h hn _ (by omega) p

theorem degenerateExt_cost (hR : Reads K S db) {t : PT} (hok : Ok t (2 ^ 60)) {n : Node} (h : Rep K S n t) (p : List Nib) :
    ∃ r m, r.length ≤ 2 ∧ (∀ db', Agree db db' r → degenerateExtAt db' (db'.len + 1) (toNibs p) n = (r, .ok m)) ∧ Settled m := by
  obtain ⟨m, h1, h2⟩ := degenerateExt_two hR hok h p
  obtain ⟨g1, g2, g3, g4⟩ := degenerateExtAt_props h1
  refine ⟨(degenerateExtAt db 2 (toNibs p) n).1, m, g1, fun db' ha => ?_, g3⟩
  rw [← h1]
  refine g4 db' _ ha ?_
  generalize (degenerateExtAt db 2 (toNibs p) n).1 = r at *
  cases r with
  | nil => exact Nat.zero_le _
  | cons x l =>
    have hx := g2 x List.mem_cons_self
    rw [← ha x List.mem_cons_self] at hx
    have : 1 ≤ db'.len := by
      unfold Db.len FMap.size
      rcases hs : db'.storage with ⟨_ | ⟨e, t⟩⟩
      · unfold Db.get FMap.get at hx
        rw [hs] at hx
        cases hx
      · simp
    omega

theorem degenerate_cost (hR : Reads K S db) (hF : Fetches K db) {t : PT} (hok : Ok t (2 ^ 60)) {n : Node} (h : Rep K S n t) (hn : ¬ IsHash n) :
    ∃ r m, r.length ≤ 2 ∧ (∀ db', Agree db db' r → degenerate db' n = (r, .ok m)) ∧ Settled m ∧ load K m ≤ under K n + 2 := by
  have key : ∃ r m, r.length ≤ 2 ∧ (∀ db', Agree db db' r → degenerate db' n = (r, .ok m)) ∧ Settled m := by
    cases h with
    | hash => exact absurd trivial hn
    | empty => exact ⟨[], _, by simp, fun _ _ => rfl, fun _ => rfl⟩
    | leaf k v => exact ⟨[], _, by simp, fun _ _ => rfl, fun _ => rfl⟩
    | ext p h => exact degenerateExt_cost hR (ok_sub hok) h p
    | branch v h =>
      rename_i cs ts
      simp only [degenerate]
      rcases hu : usedIndexes cs with _ | ⟨i, _ | ⟨j, l⟩⟩
      · rcases v with _ | w
        · exact ⟨[], _, by simp, fun _ _ => rfl, fun _ => by simp only [degenerate, hu]; rfl⟩
        · exact ⟨[], _, by simp, fun _ _ => rfl, settled_leaf _ _⟩
      · rcases v with _ | w
        · exact degenerateExt_cost hR (ok_child hok i) (h i) [i]
        · exact ⟨[], _, by simp, fun _ _ => rfl, fun _ => by simp only [degenerate, hu]; rfl⟩
      · exact ⟨[], _, by simp, fun _ _ => rfl, fun _ => by simp only [degenerate, hu]; rfl⟩
  obtain ⟨r, m, h1, h2, h3⟩ := key
  exact ⟨r, m, h1, h2, h3, degenerate_load hF (by rw [h2 db (agree_refl r)])⟩

theorem afterDelete_cost (hR : Reads K S db) (hF : Fetches K db) {t : PT} (hok : Ok t (2 ^ 60)) {n : Node} (h : Rep K S n t) (hn : ¬ IsHash n) :
    ∃ r m, r.length ≤ 2 ∧ (∀ db', Agree db db' r → afterDelete db' (n, true) = (r, .ok (m, true))) ∧ Settled m ∧ load K m ≤ under K n + 2 ∧
      Rep K S m (deg t) ∧ ¬ IsHash m := by
  obtain ⟨r, m, h1, h2, h3, h4⟩ := degenerate_cost hR hF hok h hn
  obtain ⟨m', g1, g2⟩ := degenerate_rep hR hok h hn
  have e := h2 db (agree_refl r)
  rw [e] at g1
  cases g1
  refine ⟨r, m, h1, fun db' ha => ?_, h3, h4, g2, degenerate_not_hash hn (by rw [e])⟩
  simp only [afterDelete, if_true, Out.map, h2 db' ha]
  rfl

/-- What a removal reads, and how many nodes there are to be written afterwards. -/
def DelCost (K : Keccak) (S : Bytes → Prop) (db : Db) (n : Node) (t : PT) (p : List Nib) (reads fuel : Nat) : Prop :=
  ∃ r m b u, r.length ≤ reads ∧ (∀ db' f, Agree db db' r → fuel ≤ f → deleteAt db' f n (leafPath p) = (r, .ok (m, b))) ∧
    load K m ≤ under K n + 2 * p.length + 2 ∧ (b = true → Settled m ∨ r = [] ∧ under K m ≤ under K n) ∧ Del t p u b ∧ Rep K S m u ∧ ¬ IsHash m

theorem deleteAt_cost_held (hR : Reads K S db) (hF : Fetches K db) {t : PT} (hok : Ok t (2 ^ 60)) (h : Held K S t) {p : List Nib}
    (ih : DelCost K S db (top K t) t p (3 * p.length + 2) p.length) :
    DelCost K S db (.hash (K (enc K t))) t p (3 * p.length + 3) (p.length + 1) := by
  obtain ⟨r, m, b, u, h1, h2, h3, h4, h5, h6, h7⟩ := ih
  rw [under_top hok] at h3 h4
  have step : ∀ db' f, Agree db db' (K (enc K t) :: r) → p.length + 1 ≤ f →
      deleteAt db' f (.hash (K (enc K t))) (leafPath p) = Out.andThen (K (enc K t) :: r, .ok (m, b)) (afterDelete db') := by
    intro db' f ha hf
    cases f with
    | zero => omega
    | succ f =>
      rw [deleteAt_hash, ha.fetch List.mem_cons_self, fetch_held hR h hok]
      have := h2 db' f (fun y hy => ha y (List.mem_cons_of_mem _ hy)) (by omega)
      show Out.andThen ([K (enc K t)] ++ (deleteAt db' f (top K t) (leafPath p)).1, (deleteAt db' f (top K t) (leafPath p)).2) _ = _
      rw [this]
      rfl
  cases b with
  | false =>
    refine ⟨K (enc K t) :: r, m, false, u, ?_, fun db' f ha hf => ?_, h3, fun hb => (by cases hb), h5, h6, h7⟩
    · rw [List.length_cons]; omega
    · rw [step db' f ha hf]
      show ((K (enc K t) :: r) ++ [], _) = _
      rw [List.append_nil]
      rfl
  | true =>
    rcases h4 rfl with hs | ⟨rfl, hu⟩
    · refine ⟨K (enc K t) :: r, m, true, u, ?_, fun db' f ha hf => ?_, h3, fun _ => .inl hs, h5, h6, h7⟩
      · rw [List.length_cons]; omega
      · rw [step db' f ha hf]
        have : afterDelete db' (m, true) = ([], .ok (m, true)) := by
          simp only [afterDelete, if_true, Out.map, hs db']
          rfl
        show ((K (enc K t) :: r) ++ (afterDelete db' (m, true)).1, (afterDelete db' (m, true)).2) = _
        rw [this, List.append_nil]
    · obtain ⟨r2, m2, g1, g2, g3, g4, g5, g6⟩ := afterDelete_cost hR hF (ok_del h5 hok) h6 h7
      refine ⟨K (enc K t) :: r2, m2, true, deg u, ?_, fun db' f ha hf => ?_, ?_, fun _ => .inl g3, del_deg h5, g5, g6⟩
      · rw [List.length_cons]; omega
      · rw [step db' f (fun y hy => ha y (by rcases List.mem_cons.1 hy with rfl | hy; exact List.mem_cons_self; cases hy)) hf]
        show ([K (enc K t)] ++ (afterDelete db' (m, true)).1, (afterDelete db' (m, true)).2) = _
        rw [g2 db' (fun y hy => ha y (List.mem_cons_of_mem _ hy))]
        rfl
      · simp only [under]
        omega

theorem deleteAt_cost {t : PT} (hR : Reads K S db) (hF : Fetches K db) (hok : Ok t (2 ^ 60)) (n : Node) (p : List Nib) (h : Rep K S n t)
    (hn : ¬ IsHash n) : DelCost K S db n t p (3 * p.length + 2) p.length := by
  induction t generalizing n p with
  | empty =>
    cases h with
    | empty =>
      refine ⟨[], .empty, false, .empty, Nat.zero_le _, fun db' f _ _ => ?_, Nat.zero_le _, fun hb => (by cases hb), .empty, .empty, id⟩
      cases f <;> rfl
    | hash => exact absurd trivial hn
  | leaf k w =>
    cases h with
    | leaf =>
      have e : ∀ (db : Db) (fuel : Nat), deleteAt db fuel (.leaf (leafPath k) w) (leafPath p)
          = if leafPath k = leafPath p then .of (.ok (.empty, true)) else .of (.ok (.leaf (leafPath k) w, false)) := by
        intro db fuel
        cases fuel <;> rfl
      by_cases hk : k = p
      · subst hk
        refine ⟨[], .empty, true, .empty, Nat.zero_le _, fun db' f _ _ => ?_, Nat.zero_le _, fun _ => .inl fun _ => rfl, .leafHit, .empty, id⟩
        rw [e, if_pos rfl]
        rfl
      · refine ⟨[], _, false, _, Nat.zero_le _, fun db' f _ _ => ?_, ?_, fun hb => (by cases hb), .leafMiss hk, .leaf k w, id⟩
        · rw [e, if_neg (fun h => hk (leafPath_inj.1 h))]
          rfl
        · have := load_leaf_le (K := K) (leafPath k) w
          omega
    | hash => exact absurd trivial hn
  | ext q s ih =>
    cases h with
    | hash => exact absurd trivial hn
    | ext _ h =>
      rename_i m
      have hok' := ok_sub hok
      have hq0 : 0 < q.length := List.length_pos_iff.2 hok.1
      by_cases hq : lcp p q = q.length
      · have hq' := hq
        obtain ⟨r, rfl⟩ := lcp_eq_length.1 hq
        have key : DelCost K S db m s r (3 * r.length + 3) (r.length + 1) := by
          by_cases hm : IsHash m
          · cases h with
            | hash hl h => exact deleteAt_cost_held hR hF hok' h (ih hok' _ r (rep_top h.2) (top_not_hash s))
            | _ => exact hm.elim
          · obtain ⟨l, n, b, u, h1, h2, h3⟩ := ih hok' m r h hm
            exact ⟨l, n, b, u, by omega, fun db' f ha hf => h2 db' f ha (by omega), h3⟩
        obtain ⟨l, n, b, u, h1, h2, h3, h4, h5, h6, h7⟩ := key
        have hl : (q ++ r).length = q.length + r.length := List.length_append
        have step : ∀ db' f, Agree db db' l → (q ++ r).length ≤ f → deleteAt db' f (.ext (toNibs q) m) (leafPath (q ++ r))
            = Out.andThen (l, .ok (n, b)) (fun x => afterDelete db' (if x.2 then .ext (toNibs q) x.1 else .ext (toNibs q) m, x.2)) := by
          intro db' f ha hf
          rw [deleteAt_ext, commonPrefix_toNibs, toNibs_length, if_pos hq', leafPath_drop, h2 db' f ha (by omega)]
        have g0 := under_le (K := K) m
        cases b with
        | false =>
          refine ⟨l, .ext (toNibs q) m, false, _, by omega, fun db' f ha hf => ?_, ?_, fun hb => (by cases hb), .extMiss h5, .ext q h, id⟩
          · rw [step db' f ha hf]
            show (l ++ [], _) = _
            rw [List.append_nil]
            rfl
          · have := load_le (K := K) (.ext (toNibs q) m)
            omega
        | true =>
          have hu := ok_del h5 hok'
          obtain ⟨r2, m2, g1, g2, g3⟩ := degenerateExt_cost hR hu h6 q
          obtain ⟨m', g4, g5⟩ := degenerateExt_rep hR hu h6 q
          have e2 := g2 db (agree_refl _)
          rw [e2] at g4
          cases g4
          have g6 : load K m2 ≤ under K (.ext (toNibs q) n) + 2 :=
            degenerate_load hF (show (degenerate db (.ext (toNibs q) n)).2 = .ok m2 from congrArg Prod.snd e2)
          refine ⟨l ++ r2, m2, true, deg (.ext q u), ?_, fun db' f ha hf => ?_, ?_, fun _ => .inl g3, .ext h5, g5, ?_⟩
          · rw [List.length_append]; omega
          · rw [step db' f ha.left hf]
            have : afterDelete db' (.ext (toNibs q) n, true) = (r2, .ok (m2, true)) := by
              simp only [afterDelete, if_true, Out.map, degenerate, g2 db' ha.right]
              rfl
            show (l ++ (afterDelete db' (.ext (toNibs q) n, true)).1, (afterDelete db' (.ext (toNibs q) n, true)).2) = _
            rw [this]
          · simp only [under] at g6 ⊢
            omega
          · exact degenerateExt_not_hash _ _ _ _ (congrArg Prod.snd e2)
      · refine ⟨[], _, false, _, Nat.zero_le _, fun db' f _ _ => ?_, ?_, fun hb => (by cases hb), .extOff (fun h => hq (lcp_eq_length.2 h)), .ext q h, id⟩
        · rw [deleteAt_ext, commonPrefix_toNibs, toNibs_length, if_neg hq]
          rfl
        · have := load_le (K := K) (.ext (toNibs q) m)
          omega
  | branch cs w ih =>
    cases h with
    | hash => exact absurd trivial hn
    | branch _ h =>
      rename_i ns
      cases p with
      | nil =>
        refine ⟨[], _, true, _, Nat.zero_le _, fun db' f _ _ => deleteAt_branch_nil f ns w, ?_, fun _ => .inr ⟨rfl, Nat.le_refl _⟩, .value, .branch _ h, id⟩
        have := load_le (K := K) (.branch ns none)
        simp only [under] at this ⊢
        omega
      | cons i r =>
        have hok' := ok_child hok i
        have key : DelCost K S db (ns i) (cs i) r (3 * r.length + 3) (r.length + 1) := by
          have hi := h i
          by_cases hm : IsHash (ns i)
          · generalize ns i = m at *
            generalize hc : cs i = c at *
            cases hi with
            | hash hl hh =>
              subst hc
              exact deleteAt_cost_held hR hF hok' hh (ih i hok' _ r (rep_top hh.2) (top_not_hash _))
            | _ => exact hm.elim
          · obtain ⟨l, n, b, u, h1, h2, h3⟩ := ih i hok' (ns i) r hi hm
            exact ⟨l, n, b, u, by omega, fun db' f ha hf => h2 db' f ha (by omega), h3⟩
        obtain ⟨l, n, b, u, h1, h2, h3, h4, h5, h6, h7⟩ := key
        have step : ∀ db' f, Agree db db' l → (i :: r).length ≤ f → deleteAt db' f (.branch ns w) (leafPath (i :: r))
            = Out.andThen (l, .ok (n, b)) (fun x => afterDelete db' (if x.2 then .branch (fun j => if j = i then x.1 else ns j) w else .branch ns w, x.2)) := by
          intro db' f ha hf
          rw [deleteAt_branch_cons, h2 db' f ha (by simpa using hf)]
        have g0 := under_le (K := K) (ns i)
        simp only [List.length_cons]
        cases b with
        | false =>
          refine ⟨l, .branch ns w, false, _, by omega, fun db' f ha hf => ?_, ?_, fun hb => (by cases hb), .childMiss h5, .branch w h, id⟩
          · rw [step db' f ha hf]
            show (l ++ [], _) = _
            rw [List.append_nil]
            rfl
          · have := load_le (K := K) (.branch ns w)
            simp only [List.length_cons]
            omega
        | true =>
          have hb : Ok (.branch (upd cs i u) w) (2 ^ 60) := by
            refine ⟨fun j => ?_, hok.2⟩
            simp only [upd]
            split
            · rcases hok.1 i with h' | h'
              · rw [h'] at h5; cases h5
              · exact .inr ⟨h'.1, ok_del h5 h'.2⟩
            · exact hok.1 j
          have hrep : Rep K S (.branch (fun j => if j = i then n else ns j) w) (.branch (upd cs i u) w) := by
            refine .branch w fun j => ?_
            simp only [upd]
            split
            · exact h6
            · exact h j
          obtain ⟨r2, m2, g1, g2, g3, g4, g5, g6⟩ := afterDelete_cost hR hF hb hrep id
          refine ⟨l ++ r2, m2, true, _, ?_, fun db' f ha hf => ?_, ?_, fun _ => .inl g3, .child h5, g5, g6⟩
          · rw [List.length_append]; omega
          · rw [step db' f ha.left hf]
            show (l ++ (afterDelete db' (.branch (fun j => if j = i then n else ns j) w, true)).1,
              (afterDelete db' (.branch (fun j => if j = i then n else ns j) w, true)).2) = _
            rw [g2 db' ha.right]
          · have g7 := sum_set (K := K) ns i n
            simp only [under, List.length_cons] at g4 ⊢
            omega

theorem deleteAt_cost_root {t : PT} (hR : Reads K S db) (hF : Fetches K db) (hok : Ok t (2 ^ 60)) {n : Node} {p : List Nib} (h : RepRoot K S n t) :
    DelCost K S db n t p (3 * p.length + 3) (p.length + 1) := by
  have hash := fun (h : Held K S t) => deleteAt_cost_held hR hF hok h (deleteAt_cost hR hF hok _ p (rep_top h.2) (top_not_hash t))
  cases h with
  | hash h => exact hash h
  | node h =>
    by_cases hm : IsHash n
    · cases h with
      | hash hl h => exact hash h
      | _ => exact hm.elim
    · obtain ⟨l, m, b, u, h1, h2, h3⟩ := deleteAt_cost hR hF hok n p h hm
      exact ⟨l, m, b, u, by omega, fun db' f ha hf => h2 db' f ha (by omega), h3⟩

end Verif.Pmt

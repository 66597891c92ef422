import Verif.Spec.PmtWalk
import Verif.Proofs.PmtCircle
import Mathlib.Data.List.ProdSigma
import Mathlib.Data.List.Infix
/-!
Reading along a path in a database is the walk through it, which has an end or comes to a place twice.
-/

set_option autoImplicit false

namespace Verif.Pmt

open Spec (Place AnswersAt)
open Relation (ReflTransGen TransGen)

/-- The steps of a walk through a database. -/
inductive StepD (db : Db) : Place → Place → Prop where
  | hash {x : H256} {b : Bytes} {n : Node} {p : Nibbles} (hb : db.get x = some b) (hn : decodeNode b = .ok n) : StepD db (.hash x, p) (n, p)
  | ext {q p : Nibbles} {n : Node} : StepD db (.ext q n, q ++ p) (n, p)
  | branch {cs : Fin 16 → Node} {v : Option Bytes} {i : Fin 16} {p : Nibbles} : StepD db (.branch cs v, i.val :: p) (cs i, p)

theorem StepD.unique {db : Db} {s t u : Place} (h1 : StepD db s t) (h2 : StepD db s u) : t = u := by
  cases h1 with
  | hash hb hn =>
    cases h2 with
    | hash hb' hn' => rw [hb] at hb'; cases hb'; rw [hn] at hn'; cases hn'; rfl
  | @ext q p n =>
    generalize hs : (Node.ext q n, q ++ p) = s at h2
    cases h2 with
    | hash => cases hs
    | @ext q' p' n' =>
      injection hs with e1 e2
      injection e1 with e1 e3
      subst e1 e3
      rw [List.append_cancel_left e2]
    | branch => cases hs
  | @branch cs v i p =>
    generalize hs : (Node.branch cs v, i.val :: p) = s at h2
    cases h2 with
    | hash => cases hs
    | ext => cases hs
    | @branch cs' v' i' p' =>
      injection hs with e1 e2
      injection e1 with e1 e3
      injection e2 with e2 e4
      subst e1 e4
      rw [Fin.ext e2]

/-- The walk from the place has no end. -/
def Endless (db : Db) (s : Place) : Prop := ∃ t, ReflTransGen (StepD db) s t ∧ TransGen (StepD db) t t

theorem Endless.next {db : Db} {s : Place} (h : Endless db s) : ∃ t, StepD db s t ∧ Endless db t := by
  obtain ⟨t, h1, h2⟩ := h
  rcases ReflTransGen.cases_head h1 with rfl | ⟨u, hu, hr⟩
  · obtain ⟨u, hu, hr⟩ := TransGen.head'_iff.1 h2
    exact ⟨u, hu, s, hr, h2⟩
  · exact ⟨u, hu, t, hr, h2⟩

theorem Endless.along {db : Db} {s t : Place} (h : Endless db s) (hr : ReflTransGen (StepD db) s t) : Endless db t := by
  induction hr with
  | refl => exact h
  | tail _ h1 ih =>
    obtain ⟨u, hu, he⟩ := ih.next
    rw [StepD.unique h1 hu]
    exact he

theorem commonPrefix_iff (p q : Nibbles) : Nibbles.commonPrefix p q = q.length ↔ q <+: p := by
  induction p generalizing q with
  | nil => cases q <;> simp [Nibbles.commonPrefix]
  | cons a p ih =>
    cases q with
    | nil => simp [Nibbles.commonPrefix]
    | cons b q =>
      unfold Nibbles.commonPrefix
      by_cases h : a = b
      · subst h
        simp only [if_pos, List.length_cons, List.prefix_cons_inj]
        rw [← ih q]
        omega
      · rw [if_neg h, List.length_cons]
        constructor
        · intro h'; omega
        · rintro ⟨t, ht⟩
          injection ht with e
          exact absurd e.symm h

theorem fetch_ok {db : Db} {x : H256} {b : Bytes} {n : Node} (hb : db.get x = some b) (hn : decodeNode b = .ok n) : fetch db x = .ok n := by
  unfold fetch recover
  simp only [hb, hn, Res.ok_bind, Res.pure_eq]

theorem fetch_ok_inv {db : Db} {x : H256} {n : Node} (h : fetch db x = .ok n) : ∃ b, db.get x = some b ∧ decodeNode b = .ok n := by
  unfold fetch recover at h
  rcases hg : db.get x with _ | b
  · simp only [hg] at h; cases h
  · simp only [hg] at h
    rcases hd : decodeNode b with e | m
    · simp only [hd, Res.error_bind] at h; cases h
    · simp only [hd, Res.ok_bind, Res.pure_eq] at h
      cases h
      exact ⟨b, rfl, hd⟩

theorem getStep_endless {db : Db} {hop : H256 → Nibbles → Res (Option Bytes)} {E : Res (Option Bytes)}
    (hh : ∀ x p, Endless db (.hash x, p) → hop x p = E) (n : Node) : ∀ p, Endless db (n, p) → getStep hop n p = E := by
  induction n with
  | empty => intro p h; obtain ⟨t, h1, _⟩ := h.next; cases h1
  | leaf => intro p h; obtain ⟨t, h1, _⟩ := h.next; cases h1
  | hash x => exact hh x
  | ext q n ih =>
    intro p h
    obtain ⟨t, h1, h2⟩ := h.next
    cases h1
    simp only [getStep]
    rw [if_pos ((commonPrefix_iff _ _).2 (List.prefix_append _ _)), List.drop_left]
    exact ih _ h2
  | branch cs v ih =>
    intro p h
    obtain ⟨t, h1, h2⟩ := h.next
    cases h1 with
    | @branch _ _ i p =>
      have hi := i.isLt
      simp only [getStep]
      rw [if_neg (by omega), dif_pos hi]
      exact ih i _ h2

theorem getAt_endless {db : Db} (fuel : Nat) : ∀ n p, Endless db (n, p) → getAt db fuel n p = .error (.panic "endless recursion") := by
  induction fuel with
  | zero => exact getStep_endless (fun _ _ _ => rfl)
  | succ f ih =>
    refine getStep_endless (fun x p h => ?_)
    obtain ⟨t, h1, h2⟩ := h.next
    cases h1 with
    | hash hb hn =>
      simp only [fetch_ok hb hn]
      exact ih _ _ h2

theorem getStep_ends {db : Db} (hop : H256 → Nibbles → Res (Option Bytes)) (n : Node) : ∀ p : Nibbles, (∀ x ∈ p, x ≤ 16) →
    (∃ s v, ReflTransGen (StepD db) (n, p) s ∧ AnswersAt s v ∧ getStep hop n p = .ok v) ∨
      ∃ x q, ReflTransGen (StepD db) (n, p) (.hash x, q) ∧ q <:+ p ∧ getStep hop n p = hop x q := by
  induction n with
  | empty => exact fun p _ => .inl ⟨_, _, .refl, .empty p, rfl⟩
  | leaf q v =>
    intro p _
    by_cases h : q = p
    · subst h
      exact .inl ⟨_, _, .refl, .leaf q v, by simp only [getStep, if_pos]⟩
    · exact .inl ⟨_, _, .refl, .otherLeaf v h, by simp only [getStep]; rw [if_neg h]⟩
  | hash x => exact fun p _ => .inr ⟨x, p, .refl, List.suffix_refl _, rfl⟩
  | ext q n ih =>
    intro p hp
    by_cases h : q <+: p
    · obtain ⟨r, rfl⟩ := h
      have e : getStep hop (.ext q n) (q ++ r) = getStep hop n r := by
        simp only [getStep]
        rw [if_pos ((commonPrefix_iff _ _).2 (List.prefix_append _ _)), List.drop_left]
      rw [e]
      rcases ih r (fun x hx => hp x (List.mem_append_right _ hx)) with ⟨s, v, h1, h2, h3⟩ | ⟨x, t, h1, h2, h3⟩
      · exact .inl ⟨s, v, .head .ext h1, h2, h3⟩
      · exact .inr ⟨x, t, .head .ext h1, h2.trans (List.suffix_append _ _), h3⟩
    · refine .inl ⟨_, _, .refl, .otherExt n h, ?_⟩
      simp only [getStep]
      rw [if_neg (fun h' => h ((commonPrefix_iff _ _).1 h'))]
  | branch cs v ih =>
    intro p hp
    cases p with
    | nil => exact .inl ⟨_, _, .refl, .branch cs v (fun i h => by cases h), rfl⟩
    | cons a t =>
      by_cases ha : a < 16
      · have e : getStep hop (.branch cs v) (a :: t) = getStep hop (cs ⟨a, ha⟩) t := by
          simp only [getStep]
          rw [if_neg (by omega), dif_pos ha]
        have hstep : StepD db (.branch cs v, a :: t) (cs ⟨a, ha⟩, t) := .branch (i := ⟨a, ha⟩)
        rw [e]
        rcases ih ⟨a, ha⟩ t (fun x hx => hp x (List.mem_cons_of_mem _ hx)) with ⟨s, w, h1, h2, h3⟩ | ⟨x, q, h1, h2, h3⟩
        · exact .inl ⟨s, w, .head hstep h1, h2, h3⟩
        · exact .inr ⟨x, q, .head hstep h1, h2.trans (List.suffix_cons _ _), h3⟩
      · have : a = 16 := by have := hp a (by simp); omega
        subst this
        refine .inl ⟨_, _, .refl, .branch cs v (fun i h => ?_), by simp only [getStep, if_pos]⟩
        have hi := i.isLt
        simp only [List.head?_cons, Option.some.injEq] at h
        omega

/-- What reading gives at the end of a walk. -/
def Outcome (db : Db) (s : Place) (r : Res (Option Bytes)) : Prop :=
  (∃ v, AnswersAt s v ∧ r = .ok v) ∨ ∃ x q e, s = (.hash x, q) ∧ fetch db x = .error e ∧ r = .error e

theorem Outcome.stuck {db : Db} {s t : Place} {r : Res (Option Bytes)} (h : Outcome db s r) : ¬ StepD db s t := by
  intro hs
  rcases h with ⟨v, h, _⟩ | ⟨x, q, e, rfl, h, _⟩
  · cases h with
    | empty => cases hs
    | leaf => cases hs
    | otherLeaf => cases hs
    | otherExt n h => cases hs; exact h (List.prefix_append _ _)
    | branch cs v h => cases hs with | @branch _ _ i p => exact h i rfl
  · cases hs with
    | hash hb hn => rw [fetch_ok hb hn] at h; cases h

theorem states_le {db : Db} {p : Nibbles} {l : List (H256 × Nibbles)} (hn : l.Nodup) (h : ∀ s ∈ l, (∃ b, db.get s.1 = some b) ∧ s.2 <:+ p) :
    l.length ≤ db.len * (p.length + 1) := by
  have hs : l ⊆ (db.storage.entries.map Prod.fst) ×ˢ p.tails := by
    intro s hs
    obtain ⟨⟨b, hb⟩, h2⟩ := h s hs
    exact List.pair_mem_product.2 ⟨get_mem_keys hb, (List.mem_tails _ _).2 h2⟩
  have := (List.subperm_of_subset hn hs).length_le
  rw [List.length_product, List.length_map, List.length_tails] at this
  exact this

theorem getAt_ends {db : Db} (p0 : Nibbles) (hp0 : ∀ x ∈ p0, x ≤ 16) (fuel : Nat) : ∀ (h : H256) (p : Nibbles) (S : List (H256 × Nibbles)), p <:+ p0 →
    S.Nodup → (∀ s ∈ S, ((∃ b, db.get s.1 = some b) ∧ s.2 <:+ p0) ∧ TransGen (StepD db) (.hash s.1, s.2) (.hash h, p)) →
      ¬ Endless db (.hash h, p) → hops db p0 ≤ fuel + S.length →
        ∃ s, ReflTransGen (StepD db) (.hash h, p) s ∧ Outcome db s (getAt db fuel (.hash h) p) := by
  induction fuel with
  | zero =>
    intro h p S _ hn hS _ hf
    have := states_le hn (fun s hs => (hS s hs).1)
    unfold hops at hf
    rw [Nat.mul_add, Nat.mul_one, Nat.mul_comm, Nat.zero_add] at hf
    omega
  | succ f ih =>
    intro h p S hp hn hS he hf
    have hge : getAt db (f + 1) (.hash h) p = (match fetch db h with
      | .error e => .error e
      | .ok n => getAt db f n p) := rfl
    rw [hge]
    rcases hfe : fetch db h with e | n
    · exact ⟨_, .refl, .inr ⟨h, p, e, rfl, hfe, rfl⟩⟩
    · obtain ⟨b, hb, hd⟩ := fetch_ok_inv hfe
      have hstep : StepD db (.hash h, p) (n, p) := .hash hb hd
      have hgen : ∃ hop, getAt db f = getStep hop ∧ ∀ x q, hop x q = getAt db f (.hash x) q := by cases f <;> exact ⟨_, rfl, fun _ _ => rfl⟩
      obtain ⟨hop, e1, e2⟩ := hgen
      simp only
      rcases getStep_ends (db := db) hop n p (fun x hx => hp0 x (hp.subset hx)) with ⟨s, v, h1, h2, h3⟩ | ⟨x, q, h1, h2, h3⟩
      · exact ⟨s, .head hstep h1, .inl ⟨v, h2, by rw [e1, h3]⟩⟩
      · have hnot : (h, p) ∉ S := fun hm => he ⟨_, .refl, (hS _ hm).2⟩
        have hreach : TransGen (StepD db) (.hash h, p) (.hash x, q) := TransGen.head' hstep h1
        obtain ⟨s, hs1, hs2⟩ := ih x q ((h, p) :: S) (h2.trans hp) (List.nodup_cons.2 ⟨hnot, hn⟩) (by
          intro s hs
          rcases List.mem_cons.1 hs with rfl | hs
          · exact ⟨⟨⟨b, hb⟩, hp⟩, hreach⟩
          · exact ⟨(hS s hs).1, (hS s hs).2.trans hreach⟩) (fun hx => he (by
            obtain ⟨t, t1, t2⟩ := hx
            exact ⟨t, hreach.to_reflTransGen.trans t1, t2⟩)) (by rw [List.length_cons]; omega)
        refine ⟨s, hreach.to_reflTransGen.trans hs1, ?_⟩
        rw [← e2, ← h3, ← e1] at hs2
        exact hs2

/-- Reading: endless, or the outcome of the only place at which the walk ends. -/
theorem get_walk {db : Db} (tr : Trie) (k : Bytes) : (Endless db (tr.root, Trie.path k) ∧ tr.get db k = .error (.panic "endless recursion")) ∨
    ∃ s, ReflTransGen (StepD db) (tr.root, Trie.path k) s ∧ Outcome db s (tr.get db k) := by
  by_cases he : Endless db (tr.root, Trie.path k)
  · exact .inl ⟨he, getAt_endless _ _ _ he⟩
  · right
    have hgen : ∃ hop, getAt db (hops db (Trie.path k)) = getStep hop ∧ ∀ x q, hop x q = getAt db (hops db (Trie.path k)) (.hash x) q := by
      cases hops db (Trie.path k) <;> exact ⟨_, rfl, fun _ _ => rfl⟩
    obtain ⟨hop, e1, e2⟩ := hgen
    rcases getStep_ends (db := db) hop tr.root (Trie.path k) (path_le k) with ⟨s, v, h1, h2, h3⟩ | ⟨x, q, h1, h2, h3⟩
    · exact ⟨s, h1, .inl ⟨v, h2, by unfold Trie.get; rw [e1, h3]⟩⟩
    · obtain ⟨s, hs1, hs2⟩ := getAt_ends (Trie.path k) (path_le k) (hops db (Trie.path k)) x q [] h2 List.nodup_nil (fun s hs => (nomatch hs))
        (fun hx => he (by obtain ⟨t, t1, t2⟩ := hx; exact ⟨t, h1.trans t1, t2⟩)) (Nat.le_add_right _ _)
      refine ⟨s, h1.trans hs1, ?_⟩
      rw [← e2, ← h3, ← e1] at hs2
      exact hs2

/-- A walk has only one end. -/
theorem ends_unique {db : Db} {a s t : Place} (hs : ReflTransGen (StepD db) a s) (ht : ReflTransGen (StepD db) a t) (h1 : ∀ u, ¬ StepD db s u)
    (h2 : ∀ u, ¬ StepD db t u) : s = t := by
  rcases ReflTransGen.total_of_right_unique (r := StepD db) (fun _ _ _ h1 h2 => StepD.unique h1 h2) hs ht with h | h
  · rcases ReflTransGen.cases_head h with rfl | ⟨u, hu, _⟩
    · rfl
    · exact absurd hu (h1 u)
  · rcases ReflTransGen.cases_head h with rfl | ⟨u, hu, _⟩
    · rfl
    · exact absurd hu (h2 u)

theorem answersAt_unique {s : Place} {v w : Option Bytes} (h1 : AnswersAt s v) (h2 : AnswersAt s w) : v = w := by
  cases h1 with
  | empty => cases h2; rfl
  | leaf => cases h2 with
    | leaf => rfl
    | otherLeaf _ h => exact absurd rfl h
  | otherLeaf _ h => cases h2 with
    | leaf => exact absurd rfl h
    | otherLeaf => rfl
  | otherExt => cases h2; rfl
  | branch => cases h2; rfl

theorem Outcome.unique {db : Db} {s : Place} {r1 r2 : Res (Option Bytes)} (h1 : Outcome db s r1) (h2 : Outcome db s r2) : r1 = r2 := by
  rcases h1 with ⟨v, a1, rfl⟩ | ⟨x, q, e, rfl, f1, rfl⟩
  · rcases h2 with ⟨w, a2, rfl⟩ | ⟨x, q, e, rfl, _, _⟩
    · rw [answersAt_unique a1 a2]
    · cases a1
  · rcases h2 with ⟨w, a2, rfl⟩ | ⟨x', q', e', h, f2, rfl⟩
    · cases a2
    · cases h
      rw [f1] at f2
      cases f2
      rfl

/-- The outcome at the end of the walk is what reading gives. -/
theorem get_of_outcome {db : Db} {tr : Trie} {k : Bytes} {s : Place} {r : Res (Option Bytes)} (hs : ReflTransGen (StepD db) (tr.root, Trie.path k) s)
    (ho : Outcome db s r) : tr.get db k = r := by
  rcases get_walk (db := db) tr k with ⟨he, _⟩ | ⟨t, ht, ho'⟩
  · obtain ⟨u, hu, _⟩ := (he.along hs).next
    exact absurd hu ho.stuck
  · cases ends_unique hs ht (fun _ => ho.stuck) (fun _ => ho'.stuck)
    exact ho'.unique ho

theorem stepD_mono {db db' : Db} (h : ∀ x b, db'.get x = some b → db.get x = some b) {s t : Place} (hs : StepD db' s t) : StepD db s t := by
  cases hs with
  | hash hb hn => exact .hash (h _ _ hb) hn
  | ext => exact .ext
  | branch => exact .branch

theorem Endless.mono {db db' : Db} (h : ∀ x b, db'.get x = some b → db.get x = some b) {s : Place} (hs : Endless db' s) : Endless db s := by
  obtain ⟨t, h1, h2⟩ := hs
  exact ⟨t, ReflTransGen.mono (fun _ _ => stepD_mono h) _ _ h1, TransGen.mono (fun _ _ => stepD_mono h) _ _ h2⟩

theorem fetch_missing {db : Db} {x : H256} (h : db.get x = none) : fetch db x = .error (.err "MissingTrieNode") := by
  unfold fetch recover
  simp only [h]
  rfl

theorem fetch_error {db : Db} {x : H256} {b : Bytes} {e : Err} (h : db.get x = some b) (hd : decodeNode b = .error e) : fetch db x = .error e := by
  unfold fetch recover
  simp only [h, hd, Res.error_bind]

theorem fetch_eq {db db' : Db} {x : H256} (h : db'.get x = db.get x) : fetch db' x = fetch db x := by
  unfold fetch recover
  rw [h]

/-- A database with fewer entries. -/
theorem get_less {db db' : Db} (h : ∀ x b, db'.get x = some b → db.get x = some b) (tr : Trie) (k : Bytes) :
    tr.get db' k = tr.get db k ∨ tr.get db' k = .error (.err "MissingTrieNode") := by
  rcases get_walk (db := db') tr k with ⟨he, hr⟩ | ⟨s, hs, ho⟩
  · have := getAt_endless (hops db (Trie.path k)) _ _ (he.mono h)
    exact .inl (hr.trans this.symm)
  · have hs' : ReflTransGen (StepD db) (tr.root, Trie.path k) s := ReflTransGen.mono (fun _ _ => stepD_mono h) _ _ hs
    rcases ho with ⟨v, h1, h2⟩ | ⟨x, q, e, rfl, hf, hr⟩
    · rw [h2]
      exact .inl (get_of_outcome hs' (.inl ⟨v, h1, rfl⟩)).symm
    · rcases hg : db'.get x with _ | b
      · rw [fetch_missing hg] at hf
        cases hf
        exact .inr hr
      · rw [fetch_eq ((hg.trans (h x b hg).symm))] at hf
        rw [hr]
        exact .inl (get_of_outcome hs' (.inr ⟨x, q, e, rfl, hf, rfl⟩)).symm

/-- A database that is the same on the way. -/
theorem get_same {db db' : Db} (tr : Trie) (k : Bytes)
    (h : ∀ x q, ReflTransGen (StepD db) (tr.root, Trie.path k) (.hash x, q) → db'.get x = db.get x) : tr.get db' k = tr.get db k := by
  have step : ∀ {s t}, ReflTransGen (StepD db) (tr.root, Trie.path k) s → StepD db s t → StepD db' s t := by
    intro s t hs hst
    cases hst with
    | hash hb hn => exact .hash ((h _ _ hs).trans hb) hn
    | ext => exact .ext
    | branch => exact .branch
  have walk : ∀ {s t}, ReflTransGen (StepD db) (tr.root, Trie.path k) s → ReflTransGen (StepD db) s t → ReflTransGen (StepD db') s t := by
    intro s t hs hst
    induction hst with
    | refl => exact .refl
    | tail h1 h2 ih => exact ih.tail (step (hs.trans h1) h2)
  rcases get_walk (db := db) tr k with ⟨⟨t, t1, t2⟩, hr⟩ | ⟨s, hs, ho⟩
  · rw [hr]
    refine getAt_endless _ _ _ ⟨t, walk .refl t1, ?_⟩
    obtain ⟨u, hu, hv⟩ := TransGen.head'_iff.1 t2
    exact TransGen.head' (step t1 hu) (walk (t1.tail hu) hv)
  · refine get_of_outcome (walk .refl hs) ?_
    rcases ho with ho | ⟨x, q, e, rfl, hf, hr⟩
    · exact .inl ho
    · exact .inr ⟨x, q, e, rfl, by rw [fetch_eq (h x q hs)]; exact hf, hr⟩

/-- The database of a proof has, under a hash, the last part with this hash. -/
theorem proofDb_part {K : Keccak} {root : H256} {proof : List Bytes} (x : H256) (b : Bytes) :
    (proofDb K root proof).get x = some b ↔ Spec.PartOf K root proof x b := by
  induction proof using List.reverseRecOn with
  | nil =>
    constructor
    · intro h; cases h
    · rintro ⟨l, r, h, _⟩
      cases l <;> cases h
  | append_singleton l c ih =>
    have hcons : (proofDb K root (l ++ [c])) = if root = K c ∨ c.length ≥ 32 then (proofDb K root l).insert (K c) c else proofDb K root l := by
      unfold proofDb
      rw [List.foldl_append]
      rfl
    have hC : Spec.Considered K root c ↔ (root = K c ∨ c.length ≥ 32) := by
      unfold Spec.Considered
      rw [eq_comm (a := K c)]
    have hskip : ¬ (K c = x ∧ Spec.Considered K root c) → (Spec.PartOf K root (l ++ [c]) x b ↔ Spec.PartOf K root l x b) := by
      intro hno
      constructor
      · rintro ⟨l', r, e, h1, h2, h3⟩
        rcases List.eq_nil_or_concat r with rfl | ⟨r', d, rfl⟩
        · obtain ⟨_, e2⟩ := List.append_inj' e rfl
          cases e2
          exact absurd ⟨h1, h2⟩ hno
        · rw [List.concat_eq_append, ← List.cons_append, ← List.append_assoc] at e
          obtain ⟨e1, _⟩ := List.append_inj' e rfl
          exact ⟨l', r', e1, h1, h2, fun y hy => h3 y (by simp [hy])⟩
      · rintro ⟨l', r, rfl, h1, h2, h3⟩
        refine ⟨l', r ++ [c], by simp, h1, h2, fun y hy hx => ?_⟩
        rcases List.mem_append.1 hy with hy | hy
        · exact h3 y hy hx
        · cases List.mem_singleton.1 hy
          exact fun hc => hno ⟨hx, hc⟩
    rw [hcons]
    by_cases hc : Spec.Considered K root c
    · rw [if_pos (hC.1 hc), insert_get]
      by_cases hx : x = K c
      · rw [if_pos hx]
        constructor
        · intro e
          cases e
          exact ⟨l, [], rfl, hx.symm, hc, fun y hy => (nomatch hy)⟩
        · rintro ⟨l', r, e, h1, h2, h3⟩
          rcases List.eq_nil_or_concat r with rfl | ⟨r', d, rfl⟩
          · obtain ⟨_, e2⟩ := List.append_inj' e rfl
            cases e2
            rfl
          · rw [List.concat_eq_append, ← List.cons_append, ← List.append_assoc] at e
            obtain ⟨_, e2⟩ := List.append_inj' e rfl
            cases e2
            exact absurd hc (h3 c (by simp) hx.symm)
      · rw [if_neg hx, hskip (fun h => hx h.1.symm), ih]
    · rw [if_neg (fun h => hc (hC.2 h)), hskip (fun h => hc h.2), ih]

end Verif.Pmt

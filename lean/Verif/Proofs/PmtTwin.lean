import Verif.Proofs.PmtPrune
/-!
The same call on two databases that have nothing different under the same hash: if both succeed, they do the same.
-/

set_option autoImplicit false

namespace Verif.Pmt

variable {α β : Type} {d d' : Db}

/-- What both have under a hash is the same. -/
def Alike (d d' : Db) : Prop := ∀ h b b', d.get h = some b → d'.get h = some b' → b = b'

theorem Within.alike (h : Within d d') : Alike d d' := fun x b b' hb hb' => by
  rw [h x b hb] at hb'
  exact Option.some.inj hb'

/-- If both succeed, they are equal. -/
def Same (x y : Out α) : Prop := ∀ a b, x.2 = .ok a → y.2 = .ok b → x = y

/-- If both succeed, they are equal. -/
def SameRes (x y : Res α) : Prop := ∀ a b, x = .ok a → y = .ok b → a = b

theorem Same.rfl (x : Out α) : Same x x := fun _ _ _ _ => Eq.refl x

theorem Same.of_eq {x y : Out α} (h : x = y) : Same x y := fun _ _ _ _ => h

theorem Same.map {x y : Out α} (h : Same x y) (f : α → β) : Same (x.map f) (y.map f) := by
  intro a b ha hb
  rcases x with ⟨l, e | c⟩
  · cases ha
  · rcases y with ⟨l', e | c'⟩
    · cases hb
    · rw [h c c' (Eq.refl _) (Eq.refl _)]

theorem Same.andThen {x y : Out α} (h : Same x y) {f g : α → Out β} (hfg : ∀ a, Same (f a) (g a)) : Same (x.andThen f) (y.andThen g) := by
  intro a b ha hb
  rcases x with ⟨l, e | c⟩
  · cases ha
  · rcases y with ⟨l', e | c'⟩
    · cases hb
    · cases h c c' (Eq.refl _) (Eq.refl _)
      have ha' : (f c).2 = .ok a := ha
      have hb' : (g c).2 = .ok b := hb
      show (l ++ (f c).1, (f c).2) = (l ++ (g c).1, (g c).2)
      rw [hfg c a b ha' hb']

theorem fetch_same (hd : Alike d d') (h : H256) : SameRes (fetch d h) (fetch d' h) := by
  intro a b ha hb
  unfold fetch recover at ha hb
  rcases hg : d.get h with _ | c
  · rw [hg] at ha; cases ha
  · rcases hg' : d'.get h with _ | c'
    · rw [hg'] at hb; cases hb
    · rw [hg] at ha
      rw [hg', ← hd _ _ _ hg hg'] at hb
      rw [ha] at hb
      exact Except.ok.inj hb

theorem hop_same (hd : Alike d d') (h : H256) : Same (([h], fetch d h) : Out Node) ([h], fetch d' h) := by
  intro a b ha hb
  have := fetch_same hd h a b ha hb
  subst this
  show ([h], fetch d h) = ([h], fetch d' h)
  rw [show fetch d h = .ok a from ha, show fetch d' h = .ok a from hb]

theorem insertStep_same {hop hop' : H256 → Nibbles → Out Node} (hh : ∀ h p, Same (hop h p) (hop' h p)) (v : Bytes) (n : Node) (p : Nibbles) :
    Same (insertStep hop v n p) (insertStep hop' v n p) := by
  induction n generalizing p with
  | empty => exact .rfl _
  | leaf k w => exact .rfl _
  | hash h => exact hh h p
  | ext pre sub ih =>
    simp only [insertStep]
    split
    · exact .rfl _
    · split
      · exact (ih _).map _
      · exact .rfl _
  | branch cs w ih =>
    cases p with
    | nil => exact .rfl _
    | cons x t =>
      simp only [insertStep]
      split
      · exact .rfl _
      · split
        · exact (ih _ _).map _
        · exact .rfl _

theorem insertAt_same (hd : Alike d d') (v : Bytes) (fuel fuel' : Nat) (n : Node) (p : Nibbles) :
    Same (insertAt d v fuel n p) (insertAt d' v fuel' n p) := by
  induction fuel generalizing fuel' n p with
  | zero =>
    cases fuel' with
    | zero => exact .rfl _
    | succ f => exact insertStep_same (fun h p a b ha _ => by cases ha) v n p
  | succ f ih =>
    cases fuel' with
    | zero => exact insertStep_same (fun h p a b _ hb => by cases hb) v n p
    | succ f' => exact insertStep_same (fun h p => (hop_same hd h).andThen (fun m => ih f' m p)) v n p

theorem degenerateExt_same {hop hop' : H256 → Nibbles → Out Node} (hh : ∀ h p, Same (hop h p) (hop' h p)) (n : Node) (p : Nibbles) :
    Same (degenerateExt hop p n) (degenerateExt hop' p n) := by
  induction n generalizing p with
  | hash h => exact hh h p
  | ext pre sub ih => exact ih _
  | _ => exact .rfl _

theorem degenerateExtAt_same (hd : Alike d d') (fuel fuel' : Nat) (p : Nibbles) (n : Node) :
    Same (degenerateExtAt d fuel p n) (degenerateExtAt d' fuel' p n) := by
  induction fuel generalizing fuel' n p with
  | zero =>
    cases fuel' with
    | zero => exact .rfl _
    | succ f => exact degenerateExt_same (fun h p a b ha _ => by cases ha) n p
  | succ f ih =>
    cases fuel' with
    | zero => exact degenerateExt_same (fun h p a b _ hb => by cases hb) n p
    | succ f' => exact degenerateExt_same (fun h p => (hop_same hd h).andThen (fun m => ih f' p m)) n p

theorem degenerate_same (hd : Alike d d') (n : Node) : Same (degenerate d n) (degenerate d' n) := by
  cases n with
  | ext pre sub => exact degenerateExtAt_same hd _ _ _ _
  | branch cs v =>
    simp only [degenerate]
    split
    · exact .rfl _
    · exact degenerateExtAt_same hd _ _ _ _
    · exact .rfl _
  | _ => exact .rfl _

theorem afterDelete_same (hd : Alike d d') (x : Node × Bool) : Same (afterDelete d x) (afterDelete d' x) := by
  unfold afterDelete
  split
  · exact (degenerate_same hd _).map _
  · exact .rfl _

theorem deleteStep_same (hd : Alike d d') {hop hop' : H256 → Nibbles → Out (Node × Bool)} (hh : ∀ h p, Same (hop h p) (hop' h p)) (n : Node)
    (p : Nibbles) : Same (deleteStep d hop n p) (deleteStep d' hop' n p) := by
  induction n generalizing p with
  | empty => exact .rfl _
  | leaf k w => exact .rfl _
  | hash h => exact (hh h p).andThen (afterDelete_same hd)
  | ext pre sub ih =>
    simp only [deleteStep]
    split
    · exact (ih _).andThen (fun r => afterDelete_same hd _)
    · exact .rfl _
  | branch cs w ih =>
    cases p with
    | nil => exact .rfl _
    | cons x t =>
      simp only [deleteStep]
      split
      · exact .rfl _
      · split
        · exact (ih _ _).andThen (fun r => afterDelete_same hd _)
        · exact .rfl _

theorem deleteAt_same (hd : Alike d d') (fuel fuel' : Nat) (n : Node) (p : Nibbles) : Same (deleteAt d fuel n p) (deleteAt d' fuel' n p) := by
  induction fuel generalizing fuel' n p with
  | zero =>
    cases fuel' with
    | zero => exact deleteStep_same hd (fun h p => .rfl _) n p
    | succ f => exact deleteStep_same hd (fun h p a b ha _ => by cases ha) n p
  | succ f ih =>
    cases fuel' with
    | zero => exact deleteStep_same hd (fun h p a b _ hb => by cases hb) n p
    | succ f' => exact deleteStep_same hd (fun h p => (hop_same hd h).andThen (fun m => ih f' m p)) n p

theorem pathStep_same {hop hop' : H256 → Nibbles → Res (List Node)} (hh : ∀ h p, SameRes (hop h p) (hop' h p)) (n : Node) (p : Nibbles) :
    SameRes (pathStep hop n p) (pathStep hop' n p) := by
  have same : ∀ x : Res (List Node), SameRes x x := fun x a b ha hb => by rw [ha] at hb; exact Except.ok.inj hb
  induction n generalizing p with
  | empty => exact same _
  | leaf k w => exact same _
  | hash h => exact hh h p
  | ext pre sub ih =>
    simp only [pathStep]
    split
    · exact ih _
    · exact same _
  | branch cs w ih =>
    cases p with
    | nil => exact same _
    | cons x t =>
      simp only [pathStep]
      split
      · exact same _
      · split
        · exact ih _ _
        · exact same _

theorem pathAt_same (hd : Alike d d') (fuel fuel' : Nat) (n : Node) (p : Nibbles) : SameRes (pathAt d fuel n p) (pathAt d' fuel' n p) := by
  induction fuel generalizing fuel' n p with
  | zero =>
    cases fuel' with
    | zero => exact pathStep_same (fun h p a b ha _ => by cases ha) n p
    | succ f => exact pathStep_same (fun h p a b ha _ => by cases ha) n p
  | succ f ih =>
    cases fuel' with
    | zero => exact pathStep_same (fun h p a b _ hb => by cases hb) n p
    | succ f' =>
      refine pathStep_same (fun h p a b ha hb => ?_) n p
      rcases h1 : fetch d h with e | m
      · rw [h1] at ha; cases ha
      · rcases h2 : fetch d' h with e | m'
        · rw [h2] at hb; cases hb
        · have := fetch_same hd h m m' h1 h2
          subst this
          rw [h1] at ha
          rw [h2] at hb
          simp only [Res.ok_bind] at ha hb
          rcases h3 : pathAt d f m p with e | l
          · rw [h3] at ha; cases ha
          · rcases h4 : pathAt d' f' m p with e | l'
            · rw [h4] at hb; cases hb
            · have := ih f' m p l l' h3 h4
              subst this
              rw [h3] at ha
              rw [h4] at hb
              rw [ha] at hb
              exact Except.ok.inj hb

end Verif.Pmt

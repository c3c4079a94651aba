import Verif.FmmPasses
import Verif.Accounting
import Verif.LoopLemmas

/-!
# The passes, for any pair of expansion classes satisfying the usual laws

`FmmLaws K O p` collects what the passes use of the expansions of order `p`; it is instantiated for two and three
dimensions elsewhere.  `TreeOK` says that a finished tree structure is that of a tree of paths `T`.
-/

namespace FMM
variable {d : ℕ} {K : Kit d} {A : Type} {V : Type} [AddCommGroup V]

/-- The laws of the expansions of order `p`: `isME e c S`, "`e` is the multipole expansion of `S` about `c`"; `isLE e c φ`,
"`e` is a local expansion about `c` with value function `φ`".  `cov t`: the tables are large enough for order `p`.
`adm c y`: an expansion about `c` can be evaluated at `y` (not always the case for forces in three dimensions). -/
structure FmmLaws (K : Kit d) (O : Obs K V) (p : ℕ) where
  good : K.T → Prop
  cov : K.T → Prop
  isME : K.E → Vec d → List (Source d) → Prop
  isLE : K.E → Vec d → (Vec d → V) → Prop
  nrm : V → ℝ
  direct : List (Source d) → Vec d → V
  adm : Vec d → Vec d → Prop
  B : ℝ → ℝ
  nrm_zero : nrm 0 = 0
  nrm_add : ∀ a b, nrm (a + b) ≤ nrm a + nrm b
  direct_nil : ∀ x, direct [] x = 0
  direct_append : ∀ S T x, direct (S ++ T) x = direct S x + direct T x
  direct_perm : ∀ S T x, S.Perm T → direct S x = direct T x
  B_nonneg : ∀ a, 0 < a → 0 ≤ B a
  B_anti : ∀ a b, 0 < a → a ≤ b → B b ≤ B a
  cov_good : ∀ t, cov t → good t
  leNew : ∀ t c, good t → ∃ t' e, K.leNew t c p = .ok (t', e) ∧ cov t' ∧ (cov t → t' = t) ∧ isLE e c 0
  meSrc : ∀ t c S, cov t → ∃ e, K.meSrc t c p S = .ok (t, e) ∧ isME e c S
  me_perm : ∀ e c S T, S.Perm T → isME e c S → isME e c T
  meMes : ∀ t c (L : List (K.E × Vec d × List (Source d))), cov t → L ≠ [] → (∀ x ∈ L, isME x.1 x.2.1 x.2.2) →
    ∃ e, K.meMes t c (L.map (·.1)) = .ok (t, e) ∧ isME e c (L.flatMap (·.2.2))
  size_pos : ∀ e c φ, isLE e c φ → K.size e ≠ 0
  leLe : ∀ t e c c' φ, cov t → isLE e c φ → ∃ e', K.leLe t c' e = .ok (t, e') ∧ isLE e' c' φ
  add : ∀ e f c φ ψ, isLE e c φ → isLE f c ψ → ∃ g, K.addEq e f = .ok g ∧ isLE g c (φ + ψ)
  leMes : ∀ t (b : Box d) (L : List (K.E × Box d × List (Source d))), cov t → 0 < b.len → L ≠ [] →
    (∀ x ∈ L, isME x.1 x.2.1.center x.2.2 ∧ x.2.1.len = b.len ∧ (∃ j, 2 * b.len ≤ |b.center j - x.2.1.center j|) ∧
      ∀ s ∈ x.2.2, x.2.1.contains s.pos) →
    ∃ e φ, K.leMes t b.center (L.map (·.1)) = .ok (t, e) ∧ isLE e b.center φ ∧ ∀ y, b.contains y →
      nrm (φ y - direct (L.flatMap (·.2.2)) y) ≤ B b.len * totalStrength (L.flatMap (·.2.2))
  leSrc : ∀ t (b : Box d) S, cov t → 0 < b.len → (∃ j, ∀ s ∈ S, 3 / 2 * b.len ≤ |s.pos j - b.center j|) →
    ∃ e φ, K.leSrc t b.center p S = .ok (t, e) ∧ isLE e b.center φ ∧ ∀ y, b.contains y →
      nrm (φ y - direct S y) ≤ B b.len * totalStrength S
  me_obs : ∀ e (b : Box d) S y, 0 < b.len → isME e b.center S → (∀ s ∈ S, b.contains s.pos) →
    (∃ j, 3 / 2 * b.len ≤ |y j - b.center j|) → adm b.center y →
    ∃ v, O.me e y = .ok v ∧ nrm (v - direct S y) ≤ B b.len * totalStrength S
  le_obs : ∀ e c φ y, isLE e c φ → adm c y → O.le e y = .ok (φ y)
  sum_safe : ∀ S y, O.sum true true S y = .ok (direct S y)
  sum_unsafe : ∀ S y, (∀ s ∈ S, s.pos ≠ y) → O.sum true false S y = .ok (direct S y)

theorem totalStrength_append (S T : List (Source d)) : totalStrength (S ++ T) = totalStrength S + totalStrength T := by
  simp [totalStrength_eq]

theorem totalStrength_nil : totalStrength ([] : List (Source d)) = 0 := rfl

theorem totalStrength_perm {S T : List (Source d)} (h : S.Perm T) : totalStrength S = totalStrength T := by
  rw [totalStrength_eq, totalStrength_eq]; exact (h.map _).sum_eq

/-! ## Loops -/

section
variable [DecidableEq A]

/-- A schedule executes the iterations of every loop, in any order. -/
def Schedule (sch : ℕ → List A → List A) : Prop := ∀ k l, (sch k l).Perm l

/-- `s'` may differ from `s` only in the multipole expansions of members of `l` other than `a`. -/
def AgreeMe (s s' : Exps K A) (l : List A) (a : A) : Prop :=
  s'.t = s.t ∧ s'.le = s.le ∧ ∀ b, b = a ∨ b ∉ l → s'.me b = s.me b

/-- `s'` may differ from `s` only in the local expansions of members of `l` other than `a`. -/
def AgreeLe (s s' : Exps K A) (l : List A) (a : A) : Prop :=
  s'.t = s.t ∧ s'.me = s.me ∧ ∀ b, b = a ∨ b ∉ l → s'.le b = s.le b

/-- No iteration of the loop over `l` touches the static tables or reads a cell that another iteration writes: its
effect is to store one and the same value in the multipole expansion of its own node, whatever the other iterations have
already done. -/
def RaceFreeMe (body : A → Exps K A → Outcome (Exps K A)) (l : List A) (s : Exps K A) : Prop :=
  l.Nodup ∧ ∀ a ∈ l, ∃ e, ∀ s', AgreeMe s s' l a → body a s' = .ok (s'.setMe a e)

/-- The same for a loop that computes local expansions. -/
def RaceFreeLe (body : A → Exps K A → Outcome (Exps K A)) (l : List A) (s : Exps K A) : Prop :=
  l.Nodup ∧ ∀ a ∈ l, ∃ e, ∀ s', AgreeLe s s' l a → body a s' = .ok (s'.setLe a e)

theorem forEach_me {body : A → Exps K A → Outcome (Exps K A)} {l : List A} {s : Exps K A} (P : A → K.E → Prop)
    (hl : l.Nodup) (h : ∀ a ∈ l, ∃ e, P a e ∧ ∀ s', AgreeMe s s' l a → body a s' = .ok (s'.setMe a e)) :
    ∃ s1, (∀ l', l'.Perm l → forEach body l' s = .ok s1) ∧ s1.t = s.t ∧ s1.le = s.le ∧
      (∀ a ∈ l, ∃ e, s1.me a = some e ∧ P a e) ∧ ∀ a, a ∉ l → s1.me a = s.me a := by
  classical
  choose f hf using h
  let g : A → Option K.E := fun a => if ha : a ∈ l then some (f a ha) else s.me a
  have key : ∀ (rest done : List A), (done ++ rest).Perm l →
      forEach body rest ⟨s.t, fun b => if b ∈ done then g b else s.me b, s.le⟩ = .ok ⟨s.t, fun b => if b ∈ l then g b else s.me b, s.le⟩ := by
    intro rest
    induction rest with
    | nil =>
      intro done hp
      simp only [forEach, List.foldlM_nil]
      have : ∀ b, b ∈ done ↔ b ∈ l := fun b => by rw [List.append_nil] at hp; exact hp.mem_iff
      congr 2
      funext b
      simp only [this]
    | cons a rest ih =>
      intro done hp
      have hnd : (done ++ a :: rest).Nodup := hp.nodup_iff.mpr hl
      have hal : a ∈ l := hp.mem_iff.mp (by simp)
      have hadone : a ∉ done := by
        intro h
        rw [List.nodup_append] at hnd
        exact hnd.2.2 a h a (by simp) rfl
      have hag : AgreeMe s ⟨s.t, fun b => if b ∈ done then g b else s.me b, s.le⟩ l a := by
        refine ⟨rfl, rfl, ?_⟩
        rintro b (rfl | hb)
        · simp only; rw [if_neg hadone]
        · simp only; rw [if_neg]
          intro h; exact hb (hp.mem_iff.mp (by simp [h]))
      unfold forEach
      rw [List.foldlM_cons, (hf a hal).2 _ hag, ok_bind]
      · have hp' : ((done ++ [a]) ++ rest).Perm l := by rw [List.append_assoc]; exact hp
        have := ih (done ++ [a]) hp'
        unfold forEach at this
        rw [← this]
        congr 1
        refine Exps.ext rfl ?_ rfl
        funext b
        simp only [Exps.setMe]
        by_cases hb : b = a
        · subst hb
          rw [Function.update_self, if_pos (by simp)]
          show _ = g b
          simp only [g]; rw [dif_pos hal]
        · rw [Function.update_of_ne hb]
          simp [hb]
  refine ⟨⟨s.t, fun b => if b ∈ l then g b else s.me b, s.le⟩, ?_, rfl, rfl, ?_, ?_⟩
  · intro l' hp
    have := key l' [] (by simpa using hp)
    rw [← this]
    congr 1
  · intro a ha
    refine ⟨f a ha, ?_, (hf a ha).1⟩
    simp only [if_pos ha, g, dif_pos ha]
  · intro a ha; simp only [if_neg ha]

theorem forEach_le {body : A → Exps K A → Outcome (Exps K A)} {l : List A} {s : Exps K A} (P : A → K.E → Prop)
    (hl : l.Nodup) (h : ∀ a ∈ l, ∃ e, P a e ∧ ∀ s', AgreeLe s s' l a → body a s' = .ok (s'.setLe a e)) :
    ∃ s1, (∀ l', l'.Perm l → forEach body l' s = .ok s1) ∧ s1.t = s.t ∧ s1.me = s.me ∧
      (∀ a ∈ l, ∃ e, s1.le a = some e ∧ P a e) ∧ ∀ a, a ∉ l → s1.le a = s.le a := by
  classical
  choose f hf using h
  let g : A → Option K.E := fun a => if ha : a ∈ l then some (f a ha) else s.le a
  have key : ∀ (rest done : List A), (done ++ rest).Perm l →
      forEach body rest ⟨s.t, s.me, fun b => if b ∈ done then g b else s.le b⟩ = .ok ⟨s.t, s.me, fun b => if b ∈ l then g b else s.le b⟩ := by
    intro rest
    induction rest with
    | nil =>
      intro done hp
      simp only [forEach, List.foldlM_nil]
      have : ∀ b, b ∈ done ↔ b ∈ l := fun b => by rw [List.append_nil] at hp; exact hp.mem_iff
      congr 2
      funext b
      simp only [this]
    | cons a rest ih =>
      intro done hp
      have hnd : (done ++ a :: rest).Nodup := hp.nodup_iff.mpr hl
      have hal : a ∈ l := hp.mem_iff.mp (by simp)
      have hadone : a ∉ done := by
        intro h
        rw [List.nodup_append] at hnd
        exact hnd.2.2 a h a (by simp) rfl
      have hag : AgreeLe s ⟨s.t, s.me, fun b => if b ∈ done then g b else s.le b⟩ l a := by
        refine ⟨rfl, rfl, ?_⟩
        rintro b (rfl | hb)
        · simp only; rw [if_neg hadone]
        · simp only; rw [if_neg]
          intro h; exact hb (hp.mem_iff.mp (by simp [h]))
      unfold forEach
      rw [List.foldlM_cons, (hf a hal).2 _ hag, ok_bind]
      · have hp' : ((done ++ [a]) ++ rest).Perm l := by rw [List.append_assoc]; exact hp
        have := ih (done ++ [a]) hp'
        unfold forEach at this
        rw [← this]
        congr 1
        refine Exps.ext rfl rfl ?_
        funext b
        simp only [Exps.setLe]
        by_cases hb : b = a
        · subst hb
          rw [Function.update_self, if_pos (by simp)]
          show _ = g b
          simp only [g]; rw [dif_pos hal]
        · rw [Function.update_of_ne hb]
          simp [hb]
  refine ⟨⟨s.t, s.me, fun b => if b ∈ l then g b else s.le b⟩, ?_, rfl, rfl, ?_, ?_⟩
  · intro l' hp
    have := key l' [] (by simpa using hp)
    rw [← this]
    congr 1
  · intro a ha
    refine ⟨f a ha, ?_, (hf a ha).1⟩
    simp only [if_pos ha, g, dif_pos ha]
  · intro a ha; simp only [if_neg ha]

/-! ## Trees -/

/-- The finished structure `sh` is that of the tree of paths `T` with root box `r`, all of whose nodes have depth at most
`H`, over the given sources; node `π` has address `addr π`. -/
structure TreeOK (T : PTree) (r : Box d) (items : List (Source d)) (sh : Shape d A) (addr : Path → A) (H : ℕ) : Prop where
  hc : T.c = 2 ^ d
  hA : AdjOf T r
  hr : 0 < r.len
  hH : ∀ π, T.Mem π → π.length ≤ H
  hitems : ∀ s ∈ items, r.contains s.pos
  inj : ∀ π ρ, T.Mem π → T.Mem ρ → addr π = addr ρ → π = ρ
  node : ∀ π, T.Mem π → ∃ n, sh (addr π) = .ok n ∧ n.center = (boxAt r π).center ∧ n.parent = π.tail?.map addr ∧
    (T.leaf π = false → n.children = (List.range (2 ^ d)).map fun i => some (addr (i :: π))) ∧
    n.inter = (T.inter π).map addr ∧ n.X = (T.xl π).map addr ∧
    (T.leaf π = true → n.sources = .ok (itemsAt Source.pos r items π) ∧
      n.near = ((T.nbhAfter (T.order (H + 1))).near π).map addr ∧ n.W = ((T.nbhAfter (T.order (H + 1))).W π).map addr)

end
end FMM

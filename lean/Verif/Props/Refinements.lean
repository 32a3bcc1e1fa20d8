import Verif.Props.TransformCache
import Verif.Props.Polynomial
import Verif.Props.KernelMat
import Verif.Props.Nystrom
import Verif.Props.Methods
import Verif.Props.Level
import Verif.Props.Trainable
import Verif.Props.Preimage
import Verif.Props.Settings
import Verif.Props.Subloss
import Verif.Props.CacheLevels
set_option linter.unusedSectionVars false
set_option linter.unusedSimpArgs false
/-!
# Further theorems on properties stated elsewhere

Each one was added because a wrong program left the theorems of the other files provable (see seeded/LOG.jsonl).
-/
namespace Kerch

/-! ## C07: the value a tree computes -/
section Trees
variable {V : Type}

/-- Specification of the explicit transforms along a path (last transform first), on the sample. -/
def exSample (S : TSem V) (env : TEnv V) : List Kind → Except Err V
  | [] => env.base0
  | k :: p => do
    let s ← exSample S env p
    let st ← S.stat k p.head? s
    S.comb k s st

/-- ... and on an argument: its own statistics for the transforms working by batch, those of the sample otherwise. -/
def exOos (S : TSem V) (env : TEnv V) (x : Nat) : List Kind → Except Err V
  | [] => env.base1 x
  | k :: p => do
    let o ← exOos S env x p
    let st ← match S.ownStat k with
      | some f => f o
      | none => do S.stat k p.head? (← exSample S env p)
    S.comb k o st

theorem explicit_fresh_sample (S : TSem V) (dflt : List Kind) (env : TEnv V) (p : List Kind) :
    (explicitTree S dflt).fresh env ⟨p, .sampleData⟩ = exSample S env p ∧
    ∀ k, (explicitTree S dflt).fresh env ⟨k :: p, .sampleStat⟩ = exSample S env p >>= S.stat k p.head? := by
  have hstat : ∀ p k, (explicitTree S dflt).fresh env ⟨p, .sampleData⟩ = exSample S env p →
      (explicitTree S dflt).fresh env ⟨k :: p, .sampleStat⟩ = exSample S env p >>= S.stat k p.head? := by
    intro p k h
    rw [Defs.fresh_eq_runFresh (explicit_ranked S dflt)]
    simp only [explicitTree, explicitBody, Prog.runFresh] at h ⊢
    rw [h]
    cases exSample S env p <;> rfl
  have key : (explicitTree S dflt).fresh env ⟨p, .sampleData⟩ = exSample S env p := by
    induction p with
    | nil =>
      rw [Defs.fresh_eq_runFresh (explicit_ranked S dflt)]
      rfl
    | cons k p ih =>
      have h2 := hstat p k ih
      rw [Defs.fresh_eq_runFresh (explicit_ranked S dflt)]
      simp only [explicitTree, explicitBody, Prog.runFresh] at ih h2 ⊢
      rw [ih]
      simp only [exSample]
      cases he : exSample S env p with
      | error e => rfl
      | ok s =>
        simp only
        rw [h2, he]
        simp only [bind, Except.bind]
        cases hs : S.stat k p.head? s <;> rfl
  exact ⟨key, fun k => hstat p k key⟩

/-- **C07**: the value of an argument in an explicit tree is the transforms applied one after the other to its content, each with the statistics of the sample transformed
so far (or of the argument, for transforms working by batch). -/
theorem C07_explicit_value (S : TSem V) (dflt : List Kind) (env : TEnv V) (p : List Kind) (x : Nat) :
    (explicitTree S dflt).fresh env ⟨p, .oosData x⟩ = exOos S env x p := by
  induction p with
  | nil => rw [Defs.fresh_eq_runFresh (explicit_ranked S dflt)]; rfl
  | cons k p ih =>
    have hs := (explicit_fresh_sample S dflt env p).2 k
    have hst : (explicitTree S dflt).fresh env ⟨k :: p, .oosStat x⟩ = exOos S env x p >>= fun o => match S.ownStat k with
        | some f => f o
        | none => exSample S env p >>= S.stat k p.head? := by
      rw [Defs.fresh_eq_runFresh (explicit_ranked S dflt)]
      simp only [explicitTree, explicitBody, Prog.runFresh] at ih hs ⊢
      rw [ih]
      cases exOos S env x p with
      | error e => rfl
      | ok o =>
        simp only [bind, Except.bind] at hs ⊢
        cases S.ownStat k with
        | some f => rfl
        | none =>
          simp only [Prog.runFresh]
          rw [hs]
          cases exSample S env p with
          | error e => rfl
          | ok s => simp only; cases S.stat k p.head? s <;> rfl
    rw [Defs.fresh_eq_runFresh (explicit_ranked S dflt)]
    simp only [explicitTree, explicitBody, Prog.runFresh] at ih hst ⊢
    rw [ih]
    simp only [exOos]
    cases he : exOos S env x p with
    | error e => rfl
    | ok o =>
      simp only
      rw [hst, he]
      simp only [bind, Except.bind]
      cases S.ownStat k with
      | some f => simp only; cases f o <;> rfl
      | none =>
        simp only
        cases exSample S env p with
        | error e => rfl
        | ok s => simp only; cases S.stat k p.head? s <;> rfl

/-- Specification of the implicit transforms along a path: values on the sample, between an argument and the sample, between two arguments, and the diagonal. -/
structure ImVal (V : Type) where
  sample : Except Err V
  one : Nat → Except Err V
  two : Nat → Nat → Except Err V
  diag : Nat → Except Err V

/-- One implicit transform: centring uses the mean over the sample, normalisation the diagonal; the others do not exist on kernels. -/
def imStep (S : TSem V) (k : Kind) (parent : Option Kind) (q : ImVal V) : ImVal V :=
  let ss := q.sample >>= S.stat k parent
  let mean := fun x => do let o ← q.one x; let st ← ss; S.iStatMean o st
  let norm := fun x => do let d ← q.diag x; S.iStatSphere d
  match k with
  | .mean =>
    let two := fun x y => do let sx ← mean x; let sy ← mean y; let o ← q.two x y; S.icomb .mean o sx sy
    ⟨do let m ← q.sample; let st ← ss; S.icomb .mean m st st, fun x => do let sx ← mean x; let st ← ss; let o ← q.one x; S.icomb .mean o sx st, two,
      fun x => two x x⟩
  | .sphere =>
    let two := fun x y => do let o ← q.two x y; let sx ← norm x; let sy ← norm y; S.icomb .sphere o sx sy
    ⟨do let m ← q.sample; let st ← ss; S.icomb .sphere m st st, fun x => do let o ← q.one x; let sx ← norm x; let st ← ss; S.icomb .sphere o sx st, two,
      fun x => two x x⟩
  | _ => ⟨.error .implicitError, fun _ => .error .bijectionError, fun _ _ => .error .bijectionError, fun _ => .error .bijectionError⟩

def imPath (S : TSem V) (env : TEnv V) : List Kind → ImVal V
  | [] => ⟨env.base0, env.base1, env.base2, env.diag⟩
  | k :: p => imStep S k p.head? (imPath S env p)

theorem runFresh_need {κ Env α : Type} (rec : κ → Except Err α) (env : Env) (key : κ) (f : α → Prog κ Env α) :
    (Prog.need key f).runFresh rec env = rec key >>= fun v => (f v).runFresh rec env := by
  simp only [Prog.runFresh]
  cases rec key <;> rfl

theorem runFresh_ret {κ Env α : Type} (rec : κ → Except Err α) (env : Env) (f : Env → Except Err α) :
    (Prog.ret f).runFresh rec env = f env := rfl

/-- **C07**: the value of two arguments (or of one with the sample, or of the sample) in an implicit tree is that of the transforms applied one after the other, each argument
with its own statistics. -/
theorem C07_implicit_value (S : TSem V) (dflt : List Kind) (env : TEnv V) (p : List Kind) :
    (implicitTree S dflt).fresh env ⟨p, .sampleData⟩ = (imPath S env p).sample ∧
    (∀ x, (implicitTree S dflt).fresh env ⟨p, .oosData x⟩ = (imPath S env p).one x) ∧
    (∀ x y, (implicitTree S dflt).fresh env ⟨p, .oosData2 x y⟩ = (imPath S env p).two x y) := by
  have hr := implicit_ranked S dflt
  have hb : (implicitTree S dflt).body = implicitBody S := rfl
  have step : ∀ key, (implicitTree S dflt).fresh env key = (implicitBody S key).runFresh ((implicitTree S dflt).fresh env) env := fun key => by
    rw [Defs.fresh_eq_runFresh hr, hb]
  have hdiag : ∀ k p x, (imPath S env (k :: p)).diag x = (imPath S env (k :: p)).two x x := by
    intro k p x
    cases k <;> rfl
  induction p with
  | nil => refine ⟨?_, fun x => ?_, fun x y => ?_⟩ <;> (rw [step]; rfl)
  | cons k p ih =>
    obtain ⟨i1, i2, i3⟩ := ih
    have hsphere : ∀ x, (implicitTree S dflt).fresh env ⟨.sphere :: p, .oosStat x⟩ = (imPath S env p).diag x >>= S.iStatSphere := by
      intro x
      rw [step]
      cases p with
      | nil =>
        simp only [implicitBody, runFresh_ret, imPath]
        cases env.diag x <;> rfl
      | cons k' p' =>
        simp only [implicitBody, runFresh_need, runFresh_ret]
        rw [i3, hdiag]
    cases k with
    | mean =>
      have hss : (implicitTree S dflt).fresh env ⟨.mean :: p, .sampleStat⟩ = (imPath S env p).sample >>= S.stat .mean p.head? := by
        rw [step]; simp only [implicitBody, runFresh_need, runFresh_ret, i1]
      have hst : ∀ x, (implicitTree S dflt).fresh env ⟨.mean :: p, .oosStat x⟩ =
          (imPath S env p).one x >>= fun o => (imPath S env p).sample >>= S.stat .mean p.head? >>= S.iStatMean o := by
        intro x
        rw [step]; simp only [implicitBody, runFresh_need, runFresh_ret, i2, hss]
      refine ⟨?_, fun x => ?_, fun x y => ?_⟩
      · rw [step]; simp only [implicitBody, runFresh_need, runFresh_ret, i1, hss]; rfl
      · rw [step]; simp only [implicitBody, runFresh_need, runFresh_ret, i2, hss, hst]; rfl
      · rw [step]; simp only [implicitBody, runFresh_need, runFresh_ret, i3, hst]; rfl
    | sphere =>
      have hss : (implicitTree S dflt).fresh env ⟨.sphere :: p, .sampleStat⟩ = (imPath S env p).sample >>= S.stat .sphere p.head? := by
        rw [step]; simp only [implicitBody, runFresh_need, runFresh_ret, i1]
      refine ⟨?_, fun x => ?_, fun x y => ?_⟩
      · rw [step]; simp only [implicitBody, runFresh_need, runFresh_ret, i1, hss]; rfl
      · rw [step]; simp only [implicitBody, runFresh_need, runFresh_ret, i2, hss, hsphere]; rfl
      · rw [step]; simp only [implicitBody, runFresh_need, runFresh_ret, i3, hsphere]; rfl
    | minimum => refine ⟨?_, fun x => ?_, fun x y => ?_⟩ <;> (rw [step]; rfl)
    | variance => refine ⟨?_, fun x => ?_, fun x y => ?_⟩ <;> (rw [step]; rfl)
    | minmax => refine ⟨?_, fun x => ?_, fun x y => ?_⟩ <;> (rw [step]; rfl)

end Trees

/-! ## C29: resetting makes assignments effective -/

/-- After a reset every evaluation uses the current values, whatever happened before. Missing (`_partial`): without reset, `C29_first_explicit`. -/
theorem C29_reset_partial (s : PolySt) (l : List PolyOp) (he : Evaluable (s.run l).alpha (s.run l).beta) :
    ((s.run (l ++ [.reset])).step .evalExplicit).1 = .used (s.run l).alpha (s.run l).beta := by
  have h : ∀ (l : List PolyOp) (s : PolySt), s.run (l ++ [.reset]) = { s.run l with captured := none } := by
    intro l
    induction l with
    | nil => intro s; rfl
    | cons o t ih => intro s; exact ih _
  rw [h]
  exact step_explicit { s.run l with captured := none } he (.inl rfl)

example : ((⟨2, 1, false, true, some (2, 1)⟩ : PolySt).run [.train 2 5]).beta = 5 ∧
    (((⟨2, 1, false, true, some (2, 1)⟩ : PolySt).run ([.train 2 5] ++ [.reset])).step .evalExplicit).1 = .used 2 5 :=
  ⟨rfl, C29_reset_partial ⟨2, 1, false, true, some (2, 1)⟩ [.train 2 5] ⟨⟨2, by norm_num, rfl⟩, by simp [PolySt.run, PolySt.step]⟩⟩

/-! ## C31: the matrix of the features -/

/-- `C` is the second moment matrix of the transformed features of the sample, whatever the kernel. -/
theorem C31_C_is_moment {X n d : Type} [Fintype n] [Nonempty n] [Fintype d] (explicit : Bool) (p : List Kind) (env : KEnv X n d) (Y : n → d → ℝ)
    (hY : esample env.φ env.pts p = some Y) :
    (kernelMats explicit p).fresh env "C" = .ok (.cmat (some fun i j => (∑ a, Y a i * Y a j) / Fintype.card n)) := by
  have hphi : (kernelMats explicit p).fresh env "phi" = .ok (.feat (some Y)) := by
    rw [Defs.fresh_eq_runFresh (kernelMats_ranked explicit p)]
    simp [kernelMats, Prog.runFresh, hY]
  rw [Defs.fresh_eq_runFresh (kernelMats_ranked explicit p)]
  have hb : (kernelMats (X := X) (n := n) (d := d) explicit p).body "C" = .need "phi" fun v => .ret fun _ => match v with
      | .feat Y => .ok (.cmat (Y.map fun Y => matC (Matrix.of Y)))
      | _ => .error .runtimeError := by
    simp [kernelMats]
    funext v
    cases v <;> rfl
  rw [hb]
  simp only [Prog.runFresh, hphi, Option.map_some]
  congr 2
  refine congrArg some ?_
  funext i j
  simp [matC, Matrix.mul_apply, div_eq_inv_mul]

/-! ## C34: the dimension -/

/-- Every dimension up to the number of points can be asked, is then the one read, and the next evaluation has at most that rank; a larger one is refused and changes
nothing. -/
theorem C34_set_dim (s : NysSt) (k : ℕ) :
    (k ≤ s.n → (s.setDim k).1 = .ok () ∧ (s.setDim k).2.getDim = .ok k ∧ (s.setDim k).2.reqDim = k ∧ (s.setDim k).2.n = s.n) ∧
    (s.n < k → s.setDim k = (.error .assertionError, s)) := by
  constructor
  · intro h
    simp [NysSt.setDim, h, NysSt.getDim, NysSt.reqDim]
  · intro h
    simp [NysSt.setDim, not_le.2 h]

example : ((NysSt.setDim ⟨.tensor 2, 3, fun _ _ => 0, .num 2⟩ 3).2.getDim) = .ok 3 := rfl

/-! ## C45: what the iterations return -/
section Iter
open Methods CacheSt
variable {κ α σ : Type} [DecidableEq κ] [CacheKey κ]

/-- **C45**: the value returned is the iterate reached: after the first step that asked to stop, or after all iterations. -/
theorem C45_iterate (f : σ → σ) (stop : σ → Bool) (k : ℕ) (x : σ) (c : CacheSt κ α) :
    ∃ m ≤ k, iterLoop (fun x c => (.ok (f x, stop x), c)) k x c = (.ok (f^[m] x), c) ∧ (∀ t, t + 1 < m → stop (f^[t] x) = false) ∧
      (m < k → ∃ t, m = t + 1 ∧ stop (f^[t] x) = true) := by
  induction k generalizing x with
  | zero => exact ⟨0, le_rfl, rfl, fun t h => absurd h (by omega), fun h => absurd h (by omega)⟩
  | succ k ih =>
    cases hs : stop x with
    | true =>
      refine ⟨1, by omega, ?_, fun t h => absurd h (by omega), fun _ => ⟨0, rfl, hs⟩⟩
      simp [iterLoop, hs]
    | false =>
      obtain ⟨m, hm, h1, h2, h3⟩ := ih (f x)
      refine ⟨m + 1, by omega, ?_, ?_, ?_⟩
      · simp only [iterLoop, hs, h1, Function.iterate_succ, Function.comp]
      · intro t ht
        cases t with
        | zero => exact hs
        | succ t => exact h2 t (by omega)
      · intro h
        obtain ⟨t, rfl, ht⟩ := h3 (by omega)
        exact ⟨t + 1, rfl, ht⟩

/-- **C45**: what every step preserves or improves (a bound on the objective, say) holds of the value returned if it holds of the starting value. -/
theorem C45_preserved {stp : σ → M κ α (σ × Bool)} (Q : σ → Prop) (hQ : ∀ x c x' b, (stp x c).1 = .ok (x', b) → Q x → Q x') (k : ℕ) (x : σ)
    (hx : Q x) (c : CacheSt κ α) (y : σ) (h : (iterLoop stp k x c).1 = .ok y) : Q y := by
  induction k generalizing x c with
  | zero => cases h; exact hx
  | succ k ih =>
    unfold iterLoop at h
    rcases hs : stp x c with ⟨r, c1⟩
    rw [hs] at h
    cases r with
    | error e => simp at h
    | ok v =>
      obtain ⟨x', b⟩ := v
      have hq := hQ x c x' b (by rw [hs]) hx
      cases b with
      | true => simp only [Except.ok.injEq] at h; rw [← h]; exact hq
      | false => exact ih x' hq c1 h

/-- Halving until the value is below one, at most five times. -/
example (c : CacheSt κ α) : (iterLoop (fun x c => (.ok (x / 2, decide (x / 2 < 2)), c)) 5 (12 : ℕ) c).1 = .ok 1 := by
  simp [iterLoop]

end Iter

/-! ## C51: nothing assigned -/
section Unset
open Level
variable {P D X Y : Type} (F : Fns P D X Y)

/-- **C51**: as long as no parameters have been assigned every evaluation is refused as not initialised. -/
theorem C51_unassigned (lvl : LvlArg) (ops : List (Op P D X)) (hp : ∀ p, Op.setPrimal (some p) ∉ ops) (hd : ∀ d, Op.setDual (some d) ∉ ops)
    (x : X) (r : Rep) : ((St.init lvl : St P D Y).run F ops).eval F x r = .error .notInitialized := by
  have h : ∀ (s : St P D Y), s.primal = none → s.dual = none → (s.run F ops).primal = none ∧ (s.run F ops).dual = none := by
    induction ops with
    | nil => intro s h1 h2; exact ⟨h1, h2⟩
    | cons o t ih =>
      intro s h1 h2
      refine ih (fun p h => hp p (List.mem_cons_of_mem _ h)) (fun d h => hd d (List.mem_cons_of_mem _ h)) _ ?_ ?_
      · cases o with
        | setPrimal p => cases p with
          | none => exact h1
          | some p => exact absurd (List.mem_cons_self ..) (hp p)
        | setDual d => cases d <;> exact h1
        | setDim => exact h1
        | forward id x r => exact h1
        | reset => exact h1
      · cases o with
        | setPrimal p => cases p with
          | none => rfl
          | some p => exact absurd (List.mem_cons_self ..) (hp p)
        | setDual d => cases d with
          | none => rfl
          | some d => exact absurd (List.mem_cons_self ..) (hd d)
        | setDim => rfl
        | forward id x r => exact h2
        | reset => exact h2
  obtain ⟨h1, h2⟩ := h (St.init lvl) rfl rfl
  cases r
  · simp only [St.eval, h1]
  · simp only [St.eval, h2]

end Unset

/-! ## C68: parameters given at construction -/

/-- **C68**: dual parameters given at construction follow the append at once, and for as long as values of the same shape are assigned. Missing (`_partial`): another shape. -/
theorem C68_hidden_partial (lt soft : Bool) (r c : Nat) (ops : List Trainable.Op) (h : ∀ o ∈ ops, o = .setDual (some (r, c))) :
    ((Trainable.St.construct lt none (some (r, c))).append soft).1 = .ok () ∧
    (((Trainable.St.construct lt none (some (r, c))).append soft).2.run ops).dual = ⟨some (c, r), soft⟩ := by
  refine ⟨rfl, ?_⟩
  have key : ∀ s : Trainable.St, s.dual = ⟨some (c, r), soft⟩ → (s.run ops).dual = ⟨some (c, r), soft⟩ := by
    unfold Trainable.St.run
    induction ops with
    | nil => intro s hs; exact hs
    | cons o t ih =>
      intro s hs
      rw [List.foldl_cons]
      refine ih (fun o ho => h o (List.mem_cons_of_mem _ ho)) _ ?_
      rw [h o (List.mem_cons_self ..)]
      simp [Trainable.St.step, Trainable.St.setDual, hs, Trainable.St.resetPrimal]
  exact key _ rfl

/-! ## C79: the loss of the two levels -/

/-- **C79**: at every level of the cache the first loss asked is `original - projected` for KPCA and `1/n regularization + gamma mse` for LS-SVM. -/
theorem C79_values {P : Type} (L : Int) (p : P) (rep : String) (hrep : rep = "dual" ∨ rep = "primal") (original projected reg mse : P → ℝ) (n γ : ℝ) :
    (Subloss.St.run (Subloss.kpcaParts rep original projected) ⟨p, { level := .num L, dict := [] }⟩ [.loss]).1 = [.ok (some (original p - projected p))] ∧
    (Subloss.St.run (Subloss.lssvmParts rep n γ reg mse) ⟨p, { level := .num L, dict := [] }⟩ [.loss]).1 = [.ok (some (1 / n * reg p + γ * mse p))] := by
  have one : ∀ parts : List (Subloss.Part P), Subloss.Named parts →
      (Subloss.St.run parts ⟨p, { level := .num L, dict := [] }⟩ [.loss]).1 = [.ok (some (Subloss.lossAt parts p))] := by
    intro parts hn
    by_cases hL : 2 ≤ L
    · exact C79_refreshed_partial parts hn L hL p [.loss] ⟨by simp, trivial⟩
    · exact C79_light_partial parts L (by omega) p [.loss]
  constructor
  · rw [one _ (by rcases hrep with rfl | rfl; exacts [(Subloss.kpca_named _ _).1, (Subloss.kpca_named _ _).2])]
    simp [Subloss.lossAt, Subloss.kpcaParts, sub_eq_add_neg]
  · rw [one _ (by rcases hrep with rfl | rfl; exacts [(Subloss.lssvm_named _ _ _ _).1, (Subloss.lssvm_named _ _ _ _).2])]
    simp [Subloss.lossAt, Subloss.lssvmParts]

/-! ## C85: the method used when none is given -/

/-- **C85**: without a method, the explicit pre-image is the direct inverse and the implicit one the nearest neighbours, whatever the methods give. -/
theorem C85_default {α : Type} (lower : List Char → List Char) (run : List Char → Except Err α) :
    Dispatch.explicitPreimage lower run .explicit none = Dispatch.explicitPreimage lower run .explicit (some "explicit".toList) ∧
    Dispatch.implicitPreimage lower run none = Dispatch.implicitPreimage lower run (some "knn".toList) := ⟨rfl, rfl⟩

/-! ## C86: which objects and names are concerned -/

namespace Settings

/-- Specification: `o` is the object at the root of the tree or of one of the trees below. -/
inductive Below (o : Obj) : Tree → Prop
  | root (cs : List Tree) : Below o (.node o cs)
  | child {t : Tree} {cs : List Tree} (r : Obj) (ht : t ∈ cs) (h : Below o t) : Below o (.node r cs)

theorem mem_objsList {o : Obj} {t : Tree} {cs : List Tree} (ht : t ∈ cs) (h : o ∈ t.objs) : o ∈ Tree.objsList cs := by
  induction cs with
  | nil => cases ht
  | cons c cs ih =>
    rw [Tree.objsList]
    rcases List.mem_cons.1 ht with rfl | ht
    · exact List.mem_append_left _ h
    · exact List.mem_append_right _ (ih ht)

theorem Below.mem {o : Obj} {t : Tree} (h : Below o t) : o ∈ t.objs := by
  induction h with
  | root cs => rw [Tree.objs]; exact List.mem_cons_self ..
  | child r ht _ ih => rw [Tree.objs]; exact List.mem_cons_of_mem _ (mem_objsList ht ih)

mutual
theorem below_of_mem {o : Obj} : ∀ t : Tree, o ∈ t.objs → Below o t
  | .node r cs, h => by
    rw [Tree.objs] at h
    rcases List.mem_cons.1 h with rfl | h
    · exact .root cs
    · obtain ⟨t, ht, hb⟩ := below_of_memList cs h
      exact .child r ht hb
theorem below_of_memList {o : Obj} : ∀ cs : List Tree, o ∈ Tree.objsList cs → ∃ t ∈ cs, Below o t
  | [], h => by rw [Tree.objsList] at h; cases h
  | c :: cs, h => by
    rw [Tree.objsList] at h
    rcases List.mem_append.1 h with h | h
    · exact ⟨c, List.mem_cons_self .., below_of_mem c h⟩
    · obtain ⟨t, ht, hb⟩ := below_of_memList cs h
      exact ⟨t, List.mem_cons_of_mem _ ht, hb⟩
end

/-- **C86**: a level assigned to an object is read, right after, on the object and on everything it contains, at any depth; an object with a name of its own that is not
contained keeps its level. -/
theorem C86_contained (s : LogSt) (t : Tree) (level : Option ℤ) (o : Obj) (hg : o.name ≠ "global") :
    (Below o t → (s.run [.assign t level]).read o = level.getD s.glob) ∧
    ((∀ o', Below o' t → o'.name ≠ o.name) → (s.run [.assign t level]).read o = s.read o) := by
  constructor
  · intro h
    rw [C86_name_level_partial s _ o hg]
    show (if ∃ o' ∈ t.objs, o'.name = o.name then level.getD s.glob else s.read o) = _
    rw [if_pos ⟨o, h.mem, rfl⟩]
  · intro h
    rw [C86_name_level_partial s _ o hg]
    show (if ∃ o' ∈ t.objs, o'.name = o.name then level.getD s.glob else s.read o) = _
    rw [if_neg]
    rintro ⟨o', ho, he⟩
    exact h o' (below_of_mem t ho) he

example : Below ⟨2, "Linear"⟩ (.node ⟨0, "RKM"⟩ [.node ⟨1, "KPCA"⟩ [], .node ⟨3, "LSSVM"⟩ [.node ⟨2, "Linear"⟩ []]]) :=
  .child _ (List.mem_cons_of_mem _ (List.mem_cons_self ..)) (.child _ (List.mem_cons_self ..) (.root _))

/-- **C86**: objects of one class given different names, and objects of different classes (other than `Logger`) given the same name or none, have different loggers. -/
theorem C86_names_apart (a b c c' : String) (hc : c ≠ "Logger") (hc' : c' ≠ "Logger") :
    (a ≠ b → logName (some a) c ≠ logName (some b) c) ∧ (c ≠ c' → logName (some a) c ≠ logName (some a) c' ∧ logName none c ≠ logName none c') := by
  refine ⟨fun h e => ?_, fun h => ⟨fun e => ?_, fun e => h e⟩⟩
  · simp only [logName, if_pos hc] at e
    have e2 := congrArg String.toList e
    simp only [String.toList_append] at e2
    exact h (String.ext (List.append_cancel_right (List.append_cancel_right e2)))
  · simp only [logName, if_pos hc, if_pos hc'] at e
    have e2 := congrArg String.toList e
    simp only [String.toList_append] at e2
    exact h (String.ext (List.append_cancel_left e2))

end Settings

/-! ## C78: what outlives a reset -/

/-- **C78**: among the documented entries only the identities persist: at the level `'total'` each entry is kept once requested; after a reset that spares persisting entries
the identities, and only they, are still there. -/
theorem C78_persisting (e : DocEntry) (κ α : Type) [DecidableEq κ] [CacheKey κ] (key : κ) (v : α) :
    ((((CacheSt.get defaultCacheLevel key e.call (fun c => (.ok v, c)) (CacheSt.init (.str "total"))).2.resetCache false).dict.find key).map Entry.val) =
      if e = .identity true ∨ e = .identity false then some v else none := by
  have h : ∀ (l : Int) (f p : Bool), (decide (l ≤ 4) || f) = true →
      ((({ level := .num 4, dict := Dict.set ([] : Dict κ (Entry α)) key ⟨.num l, p, v⟩ } : CacheSt κ α).resetCache false).dict.find key).map Entry.val =
        if p then some v else none := by
    intro l f p _
    cases p <;> simp [CacheSt.resetCache, Dict.set, Dict.keys, Dict.has, Dict.find, Dict.pop]
  have key2 : ∀ (l : Int), CacheSt.resolveLevel defaultCacheLevel (CacheSt.init (.str "total") : CacheSt κ α) e.call = Lvl.num l → e.call.overwrite = false →
      e.call.destroy = false → (decide (l ≤ 4) || e.call.force) = true →
      (CacheSt.get defaultCacheLevel key e.call (fun c => (.ok v, c)) (CacheSt.init (.str "total"))).2 =
        ({ level := .num 4, dict := Dict.set ([] : Dict κ (Entry α)) key ⟨.num l, e.call.persisting, v⟩ } : CacheSt κ α) := by
    intro l h1 h2 h3 h4
    have h6 : (CacheSt.init (.str "total") : CacheSt κ α).dict.find key = none := rfl
    have h5 : (CacheSt.init (.str "total") : CacheSt κ α).level = .num 4 := rfl
    simp only [CacheSt.get, h2, h6, CacheSt.save, h1, h5, Lvl.le, h3]
    rw [if_neg (by simp)]
    simp only [h4, if_true]
    rfl
  have main : ∀ (l : Int), CacheSt.resolveLevel defaultCacheLevel (CacheSt.init (.str "total") : CacheSt κ α) e.call = Lvl.num l → e.call.overwrite = false →
      e.call.destroy = false → (decide (l ≤ 4) || e.call.force) = true →
      ((((CacheSt.get defaultCacheLevel key e.call (fun c => (.ok v, c)) (CacheSt.init (.str "total"))).2.resetCache false).dict.find key).map Entry.val) =
      if e.call.persisting then some v else none := by
    intro l h1 h2 h3 h4
    rw [key2 l h1 h2 h3 h4]
    exact h l e.call.force _ h4
  cases e with
  | trSampleData b => cases b <;> exact (main _ rfl rfl rfl rfl).trans (by simp [DocEntry.call, treeCfg])
  | trSampleStat b => cases b <;> exact (main _ rfl rfl rfl rfl).trans (by simp [DocEntry.call, treeCfg])
  | trOosData b => cases b <;> exact (main _ rfl rfl rfl rfl).trans (by simp [DocEntry.call, treeCfg])
  | trOosStat b => cases b <;> exact (main _ rfl rfl rfl rfl).trans (by simp [DocEntry.call, treeCfg])
  | identity b => cases b <;> exact (main _ rfl rfl rfl rfl).trans (by simp [DocEntry.call])
  | subloss b => cases b <;> exact (main _ rfl rfl rfl rfl).trans (by simp [DocEntry.call])
  | _ => exact (main _ rfl rfl rfl rfl).trans (by simp [DocEntry.call])

end Kerch

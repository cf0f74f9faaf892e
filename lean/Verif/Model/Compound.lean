/-
Evaluation of circuits connected by bridges, with the settings kept by collections and states.
Models src/fock_state_circuit/circuit.py 273-580, 622-756, state.py 119-178 and 420-440, collection_of_states.py 274-335, 596-614,
737-903, 955-1063.
Model/Evaluate assumes that every collection has the settings of the circuit that evaluates it. In the code the settings are stored three
times: in the circuit, in the circuit a collection refers to (`_fock_state_circuit`; `copy` takes the settings from there), and in the states
(each state keeps the settings of the collection it was made for, also in copies). Here they are told apart.
Simplifications as in Model/Evaluate; all states of a collection have the same settings; a generic function leaves the settings alone.
-/
import Verif.Model.Evaluate

namespace Verif

/-- Settings of a circuit, collection or state (node_list.py 66-139, collection_of_states.py 290-322, state.py 131-160). -/
structure Settings where
  g : Cfg
  m : ℕ
  thr : ℝ

/-- node_list.py 70: the default of `threshold_probability_for_setting_to_zero`. -/
noncomputable def defaultThr : ℝ := 1 / 10000

/-- The settings of a circuit (node_list.py 66-139). -/
def Circ.settings (c : Circ) : Settings := ⟨c.g, c.m, c.thr⟩

/-- A collection: settings of the circuit it refers to, settings of its states, and the states (collection_of_states.py 290-335). -/
structure Held where
  circ : Settings
  own : Settings
  states : Coll

/-- circuit.py 721-736 with state.py 356-370: the groups of states; photon numbers are found with the settings of the states. -/
noncomputable def heldGroups (c : Circ) (own : Settings) (coll : Coll) : Option (List (Sel × List (List Char))) :=
  if c.full then some [(Sel.all, coll.keys)] else
    (groupByPhotons own.g coll).map (fun d => d.map (fun p => (if p.1.2 then Sel.eq p.1.1 else Sel.le p.1.1, p.2)))

/-- circuit.py 718-753 with state.py 356-370, 532-567: optical nodes. Copies, photon numbers and vectors use the settings of the states,
the Fock matrix those of the circuit. -/
noncomputable def opticalHeld (c : Circ) (own : Settings) (n : Opt × List ℕ) (l : List (Opt × List ℕ)) (coll : Coll) : Option Coll := do
  let coll ← copyColl own.thr own.m coll
  let groups ← heldGroups c own coll
  groups.foldlM (fun (coll : Coll) gr => gr.2.foldlM (fun (coll : Coll) i => do
    let q ← coll.get? i
    let x ← toVector own.g q.comps
    let comps ← fromVector own.g own.thr (applyReduced (fockNodes c.g (basisKeys c.g) gr.1 n l) x)
    some (coll.set i { q with comps := comps })) coll) coll

/-- circuit.py 363-381: custom Fock matrix; vectors use the settings of the states. -/
noncomputable def customHeld (own : Settings) (F : SqArr) (r : ℕ → ℕ → ℕ) (coll : Coll) : Option Coll :=
  coll.foldlM (fun (out : Coll) p => do
    let q ← copyState own.thr own.m p.2
    if F.size ≠ own.g.size then none
    let comps ← applyCustom own.g own.thr F p.2.comps
    some (addState out { q with comps := comps } none (r out.length))) []

/-- circuit.py 386-397: classical node; the setter (state.py 238-244) compares with the settings of the state. -/
noncomputable def classicalHeld (own : Settings) (f : List ℝ → List ℝ → List ℤ → Option (List ℝ)) (newValues : List ℝ) (affected : List ℤ)
    (coll : Coll) : Option Coll :=
  coll.mapM (fun p => do
    let vals ← f p.2.classical newValues affected
    if vals.length = own.m then some (p.1, { p.2 with classical := vals }) else none)

/-- circuit.py 662-690: collapsed state; names are made with the tables of the circuit (686), the copy and the setter use the settings of
the state. -/
noncomputable def collapseHeld (g : Cfg) (own : Settings) (q : QState) (cls : List ℕ) (o : List ℕ)
    (items : List (Vals × ℂ)) : Option QState := do
  let tot : ℝ := (items.map (fun p => p.2.re ^ 2 + p.2.im ^ 2)).sum
  if tot = 0 then none
  let q' ← copyState own.thr own.m q
  let cum ← mulCum q'.cum tot
  let classical ← writeClassical cls o q'.classical
  let named ← items.mapM (fun p => do
    let s ← g.render p.1
    let a : ℂ := p.2 / (Real.sqrt tot : ℂ)
    some (s, (⟨a, a.re ^ 2 + a.im ^ 2⟩ : Comp)))
  let comps ← setFromDict own.g (Dict.ofList named)
  some ⟨q'.initial, cum, comps, classical, q'.results ++ [⟨classical, tot⟩]⟩

/-- circuit.py 622-692: measurement of one state; names are read with the tables of the circuit (652). -/
noncomputable def measureHeld (g : Cfg) (own : Settings) (q : QState) (opt cls : List ℕ) : Option (List QState) := do
  let cls := if cls.length > opt.length then cls.take opt.length else cls
  let items ← q.comps.mapM (fun p => (g.parse p.1).map (fun v => (v, p.2.amp)))
  (groupBy (fun p => outcomeOf opt p.1) items).mapM (fun og => collapseHeld g own q cls og.1 og.2)

/-- circuit.py 430-453: measurement node. -/
noncomputable def measureCollHeld (g : Cfg) (own : Settings) (mid : List Char) (opt cls : List ℕ) (coll : Coll) : Option Coll :=
  coll.foldlM (fun out iq => do
    let qs ← measureHeld g own iq.2 opt cls
    some (qs.zipIdx.foldl (fun (out : Coll) qk => out.set (iq.1 ++ ['-', 'M'] ++ mid ++ marker qk.2) qk.1) out)) []

/-- circuit.py 460-513: controlled node. -/
noncomputable def controlledHeld (c : Circ) (own : Settings) (vars : List Angle) (channels : List ℤ) (defaults : List (Angle × ℝ)) (tl : List ℕ)
    (coll : Coll) : Option Coll := do
  if vars.length ≠ channels.length then none
  let out ← coll.foldlM (fun (s : Coll × (Option ℝ × Option ℝ)) p => do
    let read ← (vars.zip channels).mapM (fun vc => (pyGet p.2.classical vc.2).map (fun x => (vc.1, x)))
    let tp := setAngles read s.2
    let th ← tp.1
    let ph ← tp.2
    let single ← opticalHeld c own (genericMatrix th ph, tl) [] [p]
    some (single.foldl (fun (out : Coll) e => out.set e.1 e.2) s.1, tp)) ([], setAngles defaults (none, none))
  some out.1

/-- circuit.py 556-576: reshaping for a bridge. The copy has the settings of the circuit the collection refers to
(collection_of_states.py 614); the states made by `extend`, `reduce` and `adjust_length_of_fock_state` get the settings of the copy, which
afterwards refers to a new list of nodes with the default threshold (collection_of_states.py 777-781, 872-876, 1008-1012). -/
noncomputable def reshapeHeld (c next : Circ) (r r' : ℕ → ℕ → ℕ) (h : Held) : Option Held := do
  let states ← copyColl h.own.thr h.own.m h.states
  let a : Collection := ⟨h.circ.g, h.circ.m, h.circ.thr, states⟩
  let b ← if next.g.C > c.g.C then extendColl a (next.g.C - c.g.C) 0 [] r
    else if next.g.C < c.g.C then reduceColl a (List.range next.g.C) [] else some a
  let d ← if next.m > c.m then extendColl b 0 (next.m - c.m) [] r'
    else if next.m < c.m then reduceColl b [] (List.range next.m) else some b
  let e ← adjustLength d next.g.L
  some ⟨⟨e.g, e.m, defaultThr⟩, ⟨e.g, e.m, e.thr⟩, e.states⟩

/-- circuit.py 363-527: a node that is neither optical nor a bridge. All but classical and generic nodes make a new collection for the
evaluating circuit. -/
noncomputable def nodeHeld (c : Circ) (i : ℕ) (r : ℕ → ℕ → ℕ) (h : Held) : Node → Option Held
  | .fockMatrix F => (customHeld h.own F r h.states).map (fun out => ⟨c.settings, h.own, out⟩)
  | .classical f v a => (classicalHeld h.own f v a h.states).map (fun out => ⟨h.circ, h.own, out⟩)
  | .measurement opt cls => (measureCollHeld c.g h.own (measurementId (c.nodes.map Node.isMeasurement) i) opt cls h.states).map
      (fun out => ⟨c.settings, h.own, out⟩)
  | .controlled vars channels defaults tl => (controlledHeld c h.own vars channels defaults tl h.states).map (fun out => ⟨c.settings, h.own, out⟩)
  | .generic f => (f h.states).map (fun out => ⟨h.circ, h.own, out⟩)
  | .optical _ _ => none
  | .bridge _ => none

/-- circuit.py 273-580: `evaluate_circuit` of circuit number `k`. -/
noncomputable def evalHeld (env : ℕ → Circ) (rnd : ℕ → ℕ → Bool → ℕ → ℕ → ℕ) : ℕ → ℕ → List ℕ → Held → Option Held
  | 0, _, _, _ => none
  | fuel + 1, k, nodes, h =>
    match nodes with
    | [] => some h
    | i :: rest =>
      if ¬ (i :: rest).all (· < (env k).nodes.length) then none else
      match (env k).nodes[i]? with
      | none => none
      | some (.optical _ _) =>
        let run := opticalRun (env k) (i :: rest)
        match opticalNodes (env k) run with
        | [] => none
        | n :: l => (opticalHeld (env k) h.own n l h.states).bind
            (fun out => evalHeld env rnd fuel k (remaining run (i :: rest)) ⟨(env k).settings, h.own, out⟩)
      | some (.bridge next) =>
        (reshapeHeld (env k) (env next) (rnd k i true) (rnd k i false) h).bind
          (fun d => evalHeld env rnd fuel next (List.range (env next).nodes.length) d)
      | some n => (nodeHeld (env k) i (rnd k i true) h n).bind (evalHeld env rnd fuel k (remaining [i] (i :: rest)))

/-- compound_circuit.py 76-100, 139-147: `evaluate_circuit` of a compound circuit. -/
noncomputable def evalCompoundHeld (d : Circ) (cs : List Circ) (rnd : ℕ → ℕ → Bool → ℕ → ℕ → ℕ) (fuel : ℕ) (h : Held) : Option Held :=
  evalHeld (compoundEnv d cs) rnd fuel 0 (List.range (compoundEnv d cs 0).nodes.length) h

end Verif

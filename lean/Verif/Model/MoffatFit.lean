import Verif.Model.Elementary
import Mathlib.Data.Rat.Cast.Order

/-!
# The fit of `maxk` of the Moffat profile

Model of /repo/jax_galsim/moffat.py:434-568.  The coefficients are exact decimals, as written in the
source; the fit is evaluated in exact arithmetic.
-/

namespace JG.Elt.MoffatFit

variable {K : Type} [Field K]

/-- `jnp.polyval`, highest power first (used in moffat.py:450-457). -/
def polyval (c : List K) (x : K) : K := c.foldl (fun s a => s * x + a) 0

/-- `_pade_func`: moffat.py:450-457. -/
def pade (c : List K) (x : K) : K :=
  let order := (c.length - 1) / 2
  polyval (c.take order) x / polyval (c.drop order ++ [1]) x

/-- The scaled part of `_logmaxk_psuedo_pade_approx`, with the coefficients as rows:
moffat.py:465-467. -/
def pade2 (rows : List (List K)) (x y : K) : K := pade (rows.map fun r => pade r x) y

/-- `RATIONAL_POLY_VALS` as 17 rows of 21: moffat.py:474-566, reshaped at moffat.py:465.
The entry `(m, n)` is the decimal `m / 10 ^ n`. -/
def digits : List (List (ℤ × ℕ)) :=
  [[(40377541235164999, 17), (98573979309710097, 18), (-88368998636191423, 18),
      (-14404058874465467, 17), (-18722517103965541, 17), (-23941575929900452, 17),
      (19477051520522798, 17), (25174893659382911, 16), (69802569884628065, 16),
      (29528987005934546, 16), (-91832169346703629, 17), (49286238397646115, 17),
      (10005636301164393, 16), (70392335018807339, 17), (-14054536940247431, 17),
      (-85218622931551169, 17), (-67621128905401928, 17), (-29537613003541291, 17),
      (-12854667245219107, 16), (40189909948806379, 16), (21850570724764290, 17)],
    [(-42274342642823717, 18), (-22450115304011090, 17), (-36887180044787632, 17),
      (-43603364254842064, 17), (-49256905759091729, 17), (-66398873219847576, 17),
      (-59558712629992638, 17), (11837909921308221, 16), (-46138529248538136, 16),
      (13450469324602885, 16), (49458187528754460, 17), (60273293491308400, 17),
      (63962989463396580, 17), (61582284694766809, 17), (56781212563865269, 17),
      (55125443702360621, 17), (59619266285882933, 17), (54745878470377551, 17),
      (-12351160388207373, 17), (-70107993183023398, 17), (95935634414374444, 16)],
    [(-87283833589376003, 17), (-10255510475210847, 16), (-10929211542319643, 16),
      (-91020529616651413, 17), (-60023870397444312, 17), (-65507195560618903, 17),
      (-10722148851554705, 16), (73885075419617319, 17), (-40294754110685673, 16),
      (-78297431020829418, 16), (-66474640833734255, 17), (77380626162435606, 17),
      (67528838101327693, 17), (-17804564435440101, 17), (-62398848498466120, 17),
      (57643808537703685, 18), (11923835092489283, 16), (49233103375211917, 17),
      (-29426949991492894, 16), (26998628292637314, 16), (-14093483711909682, 17)],
    [(40372810590505115, 17), (24647318964152784, 17), (11417136722445211, 18),
      (-29679657567820844, 17), (-68704346690711138, 17), (-12937569996243186, 16),
      (-17597197158870368, 16), (11143935878967266, 16), (-35782107847819544, 16),
      (41199620228132250, 17), (11970601681985499, 17), (20114099603243733, 18),
      (-65434136381943390, 19), (85736126942115937, 18), (27261328153414083, 17),
      (48960392670307473, 17), (97834457064666291, 17), (27168180915113544, 16),
      (58280454184534474, 16), (43537429070024833, 16), (-36175915101171152, 17)],
    [(34258789295460745, 17), (15673518908599102, 17), (10666667233357530, 17),
      (27402242443574487, 17), (57450989722739154, 17), (65865111299117973, 17),
      (10619471254256168, 16), (50281107124390561, 16), (43769392931878642, 17),
      (13797757705398774, 16), (-40642060782490819, 17), (-48107106379014103, 17),
      (-46545384216554275, 17), (-32668532926704019, 17), (18685658280818033, 18),
      (73138884860456699, 17), (20590374557083453, 16), (42319105687511795, 16),
      (63443456809823573, 16), (31050925854801519, 16), (24566683840045755, 17)],
    [(-14272027049584994, 16), (-12769555499840839, 16), (-11702505921157993, 16),
      (-10897538422282065, 16), (-99570783824994358, 17), (-76663044360462829, 17),
      (24280904621074063, 18), (-62825977906654862, 17), (47748459315512886, 16),
      (-34479672270932647, 18), (15810745647692885, 16), (10592324253022773, 16),
      (65192719848377234, 17), (34733038965947277, 17), (13710269537809816, 17),
      (17457176684719813, 18), (-10579281455920138, 18), (11577313256892235, 17),
      (63498619537927703, 17), (-35636713339300936, 16), (27473701713859548, 15)],
    [(-81471628900480619, 17), (-62163518452759314, 17), (-63079895204862313, 17),
      (-87260751681315663, 17), (-79737042513719381, 17), (41369737806800105, 17),
      (22584145837329177, 16), (69141061101150347, 17), (12238567163847529, 15),
      (-14881240397019797, 16), (25346008210149407, 16), (34144215256062256, 16),
      (39404077941580811, 16), (40697631657277480, 16), (40020162458839401, 16),
      (36956516567833777, 16), (15471753010948357, 16), (-45096733243409268, 16),
      (62197356650587894, 16), (13720454142006250, 15), (71789808873106802, 16)],
    [(12878469385318689, 16), (25159257373932378, 16), (19825772948334588, 16),
      (-20124795293398445, 17), (73072182794828144, 17), (43788775079638773, 16),
      (24851710519494072, 16), (39571444680295214, 16), (79890557503685585, 15),
      (32163012590954909, 16), (-13055299196086150, 16), (24047152551806925, 16),
      (11869982622608657, 16), (-26782591519389305, 16), (-21351447178930658, 16),
      (47064345711296918, 16), (37186007845229394, 16), (-62948721775023833, 16),
      (19222396464692157, 16), (-52929135394148226, 16), (24064161945473813, 15)],
    [(46699620000159325, 17), (-28824483958610392, 17), (-52987053311717192, 17),
      (-25266220838257281, 17), (33359802997166604, 17), (34368754731009948, 17),
      (-17259824215429349, 16), (11875712562662768, 16), (-64125482087187963, 19),
      (-30986991304825956, 17), (17012128546438319, 16), (14041294008838343, 16),
      (11944956562005928, 16), (10382744098886449, 16), (96541559432919521, 17),
      (10484758969468237, 16), (11394063481569940, 16), (34269611648067827, 17),
      (-19133248804297314, 16), (10420905503308806, 15), (21179961925447843, 16)],
    [(-11710420652576292, 17), (14435488943498453, 17), (31217816268483334, 17),
      (49427150925041208, 17), (98917710459391761, 17), (16007479958753712, 16),
      (17741348266216928, 17), (-23968752594096783, 16), (27544604324111326, 16),
      (13892657174473839, 16), (87578407666511837, 17), (-35073692239590564, 19),
      (-52224301780733773, 17), (-36262978387803235, 17), (43774916805850367, 17),
      (12253499947430535, 16), (11500998128760624, 16), (11268239524120995, 16),
      (58797742250985641, 16), (-66184466647212081, 17), (56721441744825265, 16)],
    [(-56157472743129566, 17), (-43196098885679984, 17), (-37715669435929966, 17),
      (-25883322619683380, 17), (41549169648999079, 17), (19625009395677049, 16),
      (24486960792180841, 16), (-17975615666661942, 16), (19835147875960215, 16),
      (-12784851851614869, 16), (58984320559814285, 17), (74229958232406057, 17),
      (74162021876167439, 17), (40929957187021387, 17), (-20185674746649859, 17),
      (-59468903144747898, 17), (25498400735845517, 17), (31515519885019567, 16),
      (44864718840647067, 16), (-70240004332775219, 17), (46010907702840802, 16)],
    [(-71516760160570758, 17), (-60415971544731641, 18), (28908143240634510, 17),
      (29629615720773861, 17), (14493278876410129, 17), (14899706167753710, 17),
      (-25624565717364778, 17), (-54356503353058161, 17), (21871925270524719, 16),
      (12543898090398127, 16), (-10185718997820286, 16), (-67596194102120388, 17),
      (-38041180369333510, 17), (-10978898835205055, 17), (15099465724664984, 17),
      (42016694973194896, 17), (73351664383189963, 17), (10551205409739042, 16),
      (91024490373168820, 17), (-63763153414131846, 17), (68893802543718774, 16)],
    [(-45971718133357287, 17), (-69284977440148543, 17), (-86796268450746850, 17),
      (-10950384320348023, 16), (-11966360910997955, 16), (-67707548888538704, 17),
      (-13280469312410206, 17), (-32278394553456100, 16), (-14343263133851598, 16),
      (-26555777667727885, 16), (87311541655505295, 18), (24177522001854126, 17),
      (45981899324422781, 17), (53346538819879574, 17), (52250263059044200, 17),
      (67501024530644282, 17), (70657219206455624, 17), (-39412109509589072, 17),
      (-10587888360932021, 16), (42457441911909166, 16), (-23140489272869411, 17)],
    [(-22861844257468347, 16), (-13329768983397348, 16), (-53454494370389308, 18),
      (10612438826511756, 16), (16464548555599556, 16), (21981962147620164, 16),
      (21218914660603314, 16), (-37578534604190112, 16), (82081595576296251, 17),
      (43296094785753092, 17), (-10816112906194235, 16), (-36484327546078127, 17),
      (60909104075857867, 17), (16358031456615689, 16), (23229646816108964, 16),
      (22118727909599141, 16), (13469163868086866, 16), (12994214055102531, 16),
      (43813763657608504, 16), (49975532252885566, 16), (13903679245689864, 16)],
    [(48414327285872227, 17), (70224530774924843, 17), (10803339536568390, 16),
      (13373166223466377, 16), (95760508245182152, 17), (-61863962466179623, 17),
      (-33019470393120369, 16), (-59049244231580120, 16), (92207101115694030, 16),
      (53444749163645511, 17), (16108800350605517, 16), (13165642014926429, 16),
      (90587909506896747, 17), (43594752341224680, 17), (36916356990756842, 18),
      (-82038474944938655, 18), (32166115760007336, 17), (14564827647673204, 16),
      (28544422054339025, 16), (26552473716396197, 16), (14919279500221457, 15)],
    [(-25271129085382765, 17), (-88992556214129459, 17), (-69246476700165105, 17),
      (18480538936798771, 17), (12640503721685272, 16), (14458856404463873, 16),
      (-31286650751120088, 17), (-33813513244865669, 16), (37081909895009160, 16),
      (95461952229348529, 18), (18316337726387808, 16), (19081909769641892, 16),
      (17882437073633883, 16), (14886753215997492, 16), (10530609759478995, 16),
      (60216177299874951, 17), (46111555601369725, 17), (12362626622408777, 16),
      (26589804765640928, 16), (30218939157874125, 16), (96956758605654425, 16)],
    [(30084649428700154, 16), (-16285708118911306, 16), (-33636750849697350, 16),
      (-13583162670326305, 16), (25494015893551629, 16), (30980878905749085, 16),
      (-30085452437932623, 16), (15124259940551708, 16), (55515261212099150, 16),
      (-15205550733351489, 17), (-55411686182748421, 17), (49613391570372412, 17),
      (15851717222454447, 16), (24378677019392678, 16), (24074271019318774, 16),
      (13514419949232819, 16), (17063949677974886, 16), (74087472372617151, 16),
      (17585074429003971, 16), (13341690752552770, 15), (70750414351312099, 16)]]

/-- The decimals as rational numbers. -/
def table : List (List ℚ) := digits.map fun r => r.map fun d => (d.1 : ℚ) / 10 ^ d.2

/-- `LOG_BETA_MIN`, `LOG_BETA_MAX`, `LOG_MKTS_MIN`, `LOG_MKTS_MAX`: moffat.py:444-447. -/
noncomputable def logBetaMin : ℝ := Real.log (1.1 + 1e-6)
/-- moffat.py:445. -/
noncomputable def logBetaMax : ℝ := Real.log 100
/-- moffat.py:446. -/
noncomputable def logMktsMin : ℝ := Real.log 1e-12
/-- moffat.py:447. -/
noncomputable def logMktsMax : ℝ := Real.log 0.1

/-- `_logmaxk_psuedo_pade_approx(log_beta, log_mkts, RATIONAL_POLY_VALS)`: moffat.py:460-467. -/
noncomputable def fit (logBeta logMkts : ℝ) : ℝ :=
  pade2 (table.map fun r => r.map fun q : ℚ => (q : ℝ))
    ((logBeta - logBetaMin) / (logBetaMax - logBetaMin))
    ((logMkts - logMktsMin) / (logMktsMax - logMktsMin))

end JG.Elt.MoffatFit

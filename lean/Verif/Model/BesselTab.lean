import Verif.Base.Res
import Mathlib.Algebra.Order.Ring.Rat

/-!
# Tables of the Bessel functions: zm_sf_bessel.c

The coefficients as they are written in the source, `dec m e` for the decimal number m / 10^e.  The rounding of the literals to `double` is not modelled.
-/

namespace Zm.Bessel

/-- A decimal literal: m / 10^e. -/
def dec (m : Int) (e : Nat) : ℚ := mkRat m (10 ^ e)

/-- `a` of `zBesselJ0`, zm_sf_bessel.c:32-37. -/
def tJ0a : List ℚ :=
  [dec (-23655394) 19, dec 470889868 18, dec (-678167892231) 19, dec 67816840038636 19, dec (-4340277777716935) 19, dec 156249999999992397 19,
   dec (-2499999999999999638) 19, dec 9999999999999999997 19]

/-- `b` of `zBesselJ0`, zm_sf_bessel.c:38-74. -/
def tJ0b : List ℚ :=
  [dec 626681117 19, dec (-22270614428) 19, dec 662981656302 19, dec (-16268486502196) 19, dec 321978384111685 19, dec (-500523773331583) 18,
   dec 59060313537449816 19, dec (-505265323740109701) 19, dec 2936432097610503985 19, dec (-10482565081091638637) 19, dec 19181123286040428113 19,
   dec (-113191994752217001) 17, dec (-1965480952704682) 16, dec 457457332 19, dec (-15814772025) 19, dec 455487446311 19, dec (-10735201286233) 19,
   dec 202015179970014 19, dec (-2942392368203808) 19, dec 31801987726150648 19, dec (-239875209742846362) 19, dec 1141447698973777641 19,
   dec (-2766726722823530233) 19, dec 1088620480970941648 19, dec 5136514645381999197 19, dec (-2100594022073706033) 19, dec 331366618 19,
   dec (-11119090229) 19, dec 308823040363 19, dec (-6956602653104) 19, dec 123499947481762 19, dec (-166295194539618) 18, dec 16048663165678412 19,
   dec (-100785479932760966) 19, dec 328996815223415274 19, dec (-56168761733860688) 19, dec (-2341096400274429386) 19, dec 2551729256776404262 19,
   dec 2288438186148935667 19, dec 238007203 19, dec (-7731046439) 19, dec 206237001152 19, dec (-4412291442285) 19, dec 73107766249655 19,
   dec (-891749801028666) 19, dec 734165451384135 18, dec (-33303085445352071) 19, dec 15425853045205717 19, dec 521100583113136379 19,
   dec (-1334447768979217815) 19, dec (-1401330292364750968) 19, dec 2685616168804818919 19, dec 16935595 18, dec (-5308092192) 19,
   dec 135323005576 19, dec (-2726650587978) 19, dec 4151324014176 18, dec (-443353052220157) 19, dec 2815740758993879 19,
   dec (-4393235121629007) 19, dec (-67573531105799347) 19, dec 369141914660130814 19, dec 81673361942996237 19, dec (-257338128589888186) 18,
   dec 459580257102978932 19]

/-- `c` of `zBesselJ0`, zm_sf_bessel.c:75-111. -/
def tJ0c : List ℚ :=
  [dec (-3009451757) 20, dec (-14958003844) 20, dec 506854544776 20, dec 1863564222012 20, dec (-60304249068078) 20, dec (-147686259937403) 20,
   dec 4714331342682714 20, dec 6286305481740818 20, dec (-214137170594124344) 20, dec (-89157336676889788) 20, dec 4508258728666024989 20,
   dec (-490362805828762224) 20, dec (-27312196367405374426) 20, dec 4193925184293450356 20, dec (-71245356) 19, dec (-41170814825) 20,
   dec 138012624364 20, dec 5704447670683 20, dec (-19026363528842) 20, dec (-533925032409729) 20, dec 1736064885538091 20, dec 30692619152608375 20,
   dec (-92598938200644367) 20, dec (-917934265960017663) 20, dec 2287952522866389076 20, dec 10545197546252853195 20,
   dec (-16126443075752985095) 20, dec (-19392874768742235538) 20, dec 2128344556 20, dec (-31053910272) 20, dec (-334979293158) 20,
   dec 450723289505 19, dec 36437959146427 20, dec (-446421436266678) 20, dec (-2523429344576552) 20, dec 27519882931758163 20,
   dec 97185076358599358 20, dec (-898326746345390692) 20, dec (-1665959196063987584) 20, dec 11456933464891967814 20, dec 7885001422733148815 20,
   dec (-23664819446234712621) 20, dec 3035295055 20, dec 5486066835 20, dec (-501026824811) 20, dec (-50124684786) 19, dec 58012340163034 20,
   dec 16788922416169 20, dec (-4373270270147275) 20, dec 1183898532719802 20, dec 189863342862291449 20, dec (-11375924956163613) 19,
   dec (-3846797195329871681) 20, dec 2389746880951420335 20, dec 22837862066532347461 20, dec (-6765394811166522844) 20, dec 1279875977 20,
   dec 35925958103 20, dec (-228037105967) 20, dec (-4852770517176) 20, dec 28696428000189 20, dec 440131125178642 20, dec (-2366617753349105) 20,
   dec (-24412456252884129) 20, dec 113028178539430542 20, dec 70847051391978908 19, dec (-2526914792327618386) 20, dec (-8006137953480093426) 20,
   dec 16548380461475971846 20, dec 14688405470042110229 20]

/-- `d` of `zBesselJ0`, zm_sf_bessel.c:112-141. -/
def tJ0d : List ℚ :=
  [dec 1059601355592185731 32, dec (-271150591218550377) 30, dec 86514809056201638 28, dec (-46264028554286627) 26, dec 50815403835647104 24,
   dec (-176722552048141208) 22, dec 16286750396763997378 20, dec 2949651820598278873 31, dec (-8818215611676125741) 30, dec 3571119876162253451 28,
   dec (-263192412099371706) 25, dec 4709502795656698909 24, dec (-5208333333333283282) 21, dec 718344107717531977 32, dec (-251623725588410308) 30,
   dec 86017784918920604 28, dec (-46256876614290359) 26, dec 50815343220437937 24, dec (-17672255176494197) 21, dec 16286750396763433767 20,
   dec 22327570859680094777 32, dec (-8464594853517051292) 30, dec 3563766464349055183 28, dec (-2631843986737892965) 26, dec 470950234228865941 23,
   dec (-52083333332278466225) 22, dec 515413392842889366 32, dec (-227740238380640162) 30, dec 84827767197609014 28, dec (-46224753682737618) 26,
   dec 50814848128929134 24, dec (-17672254763876748) 21, dec 16286750396748926663 20, dec 17316195320192170887 32, dec (-7971122772293919646) 30,
   dec 3544039469911895749 28, dec (-2631443902081701081) 26, dec 4709498228695400603 24, dec (-5208333331514365361) 21, dec 384653681453798517 32,
   dec (-204464520778789011) 30, dec 83089298605177838 28, dec (-46155016158412096) 26, dec 5081326369646665 23, dec (-176722528311426167) 22,
   dec 1628675039665006593 19, dec 13797879972460878797 32, dec (-7448089381011684812) 30, dec 351273379710695978 27, dec (-2630500895563592722) 26,
   dec 4709483934775839193 24, dec (-52083333227940760113) 22]

/-- `a` of `zBesselJ1`, zm_sf_bessel.c:165-170. -/
def tJ1a : List ℚ :=
  [dec (-14810349) 20, dec 3363594618 20, dec (-565140051697) 20, dec 67816840144764 20, dec (-5425347222188379) 20, dec 260416666666662438 20,
   dec (-6249999999999999799) 20, dec 49999999999999999998 20]

/-- `b` of `zBesselJ1`, zm_sf_bessel.c:171-207. -/
def tJ1b : List ℚ :=
  [dec 243721316 20, dec (-9400554763) 20, dec 30605338998 19, dec (-8287270492518) 20, dec 183020515991344 20, dec (-3219783841164382) 20,
   dec 43795830161515318 20, dec (-442952351530868999) 20, dec 3157908273375945955 20, dec (-14682160488052520107) 20, dec 39309619054093640008 20,
   dec (-4795280821510107028) 19, dec 1414899934402712514 19, dec 182119257 20, dec (-6862117678) 20, dec 21732790836 19, dec (-569359291782) 19,
   dec 120771046483277 20, dec (-2020151799736374) 20, dec 25745933218048448 20, dec (-238514907946126334) 20, dec 1499220060892984289 20,
   dec (-5707238494868888345) 20, dec 10375225210588234727 20, dec (-2721551202427354117) 20, dec (-6420643306727498985) 20, dec 1352611196 21,
   dec (-49706947875) 21, dec 1527944986332 21, dec (-38602878823401) 21, dec 782618036237845 21, dec (-123499947484511) 19,
   dec 145508295194426686 21, dec (-1203649737425854162) 21, dec 6299092495799005109 21, dec (-16449840761170764763) 21, dec 2106328565019748701 21,
   dec 5852741000686073465 20, dec (-31896615709705053191) 21, dec 997982124 21, dec (-35702556073) 21, dec 1062332772617 21,
   dec (-25779624221725) 21, dec 496382962683556 21, dec (-7310776625173004) 21, dec 78028107569541842 21, dec (-550624088538081113) 21,
   dec 2081442840335570371 21, dec (-771292652260286633) 21, dec (-19541271866742634199) 21, dec 33361194224480445382 21,
   dec 17516628654559387164 21, dec 731050661 21, dec (-25404499912) 21, dec 729360079088 21, dec (-16915375004937) 21, dec 306748319652546 21,
   dec (-4151324014331739) 21, dec 38793392054271497 21, dec (-211180556924525773) 21, dec 274577195102593786 21, dec 3378676555289966782 21,
   dec (-13842821799754920148) 21, dec (-2041834048574905921) 21, dec 32167266073736023299 21]

/-- `c` of `zBesselJ1`, zm_sf_bessel.c:208-244. -/
def tJ1c : List ℚ :=
  [dec (-1185964494) 20, dec 39110295657 20, dec 180385519493 20, dec (-5575391345723) 20, dec (-18635897017174) 20, dec 542738239401869 20,
   dec 1181490114244279 20, dec (-3300031939852107) 19, dec (-37717832892725053) 20, dec 1070685852970608288 20, dec 356629346707622489 20,
   dec (-13524776185998074716) 20, dec 980725611657523952 20, dec 27312196367405374425 20, dec (-3029591097) 20, dec 9259293559 20,
   dec 496321971223 20, dec (-1518137078639) 20, dec (-57045127595547) 20, dec 171237271302072 20, dec 4271400348035384 20,
   dec (-12152454198713258) 20, dec (-184155714921474963) 20, dec 462994691003219055 20, dec 3671737063840232452 20, dec (-6863857568599167175) 20,
   dec (-21090395092505707655) 20, dec 16126443075752985095 20, dec (-219760208) 19, dec (-27659100729) 20, dec 374295124827 20,
   dec 3684765777023 20, dec (-45072801091574) 20, dec (-327941630669276) 20, dec 35713715545163 18, dec 17664005411843533 20,
   dec (-165119297594774104) 20, dec (-485925381792986774) 20, dec 3593306985381680131 20, dec 4997877588191962563 20,
   dec (-22913866929783936544) 20, dec (-7885001422733148814) 20, dec 516292316 20, dec (-39445956763) 20, dec (-66220021263) 20,
   dec 5511286218639 20, dec 501257940078 19, dec (-522111059203425) 20, dec (-134311394455105) 20, dec 30612891890766805 20,
   dec (-7103391195326182) 20, dec (-949316714311443491) 20, dec 455036998246516948 20, dec 11540391585989614784 20, dec (-4779493761902840455) 20,
   dec (-2283786206653234746) 19, dec 2697817493 20, dec (-16633326949) 20, dec (-43313486035) 19, dec 2508404686362 20, dec 48528284780984 20,
   dec (-258267851112118) 20, dec (-3521049080466759) 20, dec 16566324273339952 20, dec 146474737522491617 20, dec (-565140892697147306) 20,
   dec (-28338820556793004) 18, dec 7580744376982855057 20, dec 16012275906960187978 20, dec (-16548380461475971845) 20]

/-- `d` of `zBesselJ1`, zm_sf_bessel.c:245-274. -/
def tJ1d : List ℚ :=
  [dec (-1272346002224188092) 32, dec 3370464692346669075 31, dec (-1144940314335484869) 29, dec 6863141561083429745 28,
   dec (-9491933932960924159) 26, dec 5301676561445687562 23, dec 162867503967639974 18, dec (-3652982212914147794) 31, dec 1151126750560028914 29,
   dec (-5165585095674343486) 28, dec 4657991250060549892 26, dec (-1186794704692706504) 23, dec 1562499999999994026 20,
   dec (-8713069680903981555) 33, dec 3140780373478474935 31, dec (-1139089186076256597) 29, dec 6862299023338785566 28,
   dec (-9491926788274594674) 26, dec 5301676558106268323 23, dec 162867503967646622 18, dec (-2792555727162752006) 31, dec 1108650207651756807 29,
   dec (-5156745588549830981) 28, dec 4657894859077370979 26, dec (-1186794650130550256) 23, dec 1562499999987299901 20,
   dec (-6304859171204770696) 33, dec 2857249044208791652 31, dec (-1124956921556753188) 29, dec 6858482894906716661 28,
   dec (-949186795351689846) 25, dec 5301676509057781574 23, dec 1628675039678191167 19, dec (-2185193490132496053) 31, dec 1048820673697426074 29,
   dec (-5132819367467680132) 28, dec 465740943737299422 25, dec (-1186794150862988921) 23, dec 1562499999779270706 20, dec (-474041720979200985) 32,
   dec 2578715253644144182 31, dec (-1104148898414138857) 29, dec 6850134201626289183 28, dec (-949167823417491964) 25, dec 5301676277588728159 23,
   dec 1628675039690033136 19, dec (-175512205749384229) 30, dec 9848723331445182397 30, dec (-5094535425482245697) 28, dec 4656255982268609304 26,
   dec (-1186792402114394891) 23, dec 1562499998712198636 20]

/-- `a` of `zBesselY0`, zm_sf_bessel.c:341-350. -/
def tY0a : List ℚ :=
  [dec (-151249795) 20, dec 29979612902 20, dec (-4317352912436) 20, dec 431735413787068 20, dec (-2763106650893309) 19, dec 99471839432433894 19,
   dec (-15915494309189533339) 20, dec 63661977236758134306 20, dec 409490035 20, dec (-76925095943) 20, dec 10358472550303 20,
   dec (-949500519343105) 20, dec 53860266685948738 20, dec (-1607396802593822992) 20, dec 17760601686906713536 20, dec (-7380429510868722524) 20]

/-- `b` of `zBesselY0`, zm_sf_bessel.c:351-408. -/
def tY0b : List ℚ :=
  [dec (-2958527319) 20, dec (-4799424787) 20, dec 70761365903 20, dec 786916310954 20, dec 440632174633 19, dec 1047420705431 19,
   dec (-70359581447993) 20, dec (-1068225180236166) 20, dec (-7636033201484949) 20, dec (-34318294473105478) 20, dec (-50019381740765567) 20,
   dec 898034680285547482 20, dec 14783488851798565262 20, dec 1218096458136948754 20, dec (-3790394288) 20, dec (-83012324083) 20,
   dec (-416344143065) 20, dec (-159750317942) 20, dec 11897479804282 20, dec 89462034665663 20, dec 27927785508031 19, dec (-710267818373816) 20,
   dec (-14158631248747538) 20, dec (-89512296835766028) 20, dec (-286419212921734238) 20, dec 448696141199596815 20, dec 16247276853497028694 20,
   dec 16806523426268420517 20, dec 49508820408 20, dec 240256475451 20, dec (-34128702476) 19, dec (-7926555593644) 20, dec (-27510687602104) 20,
   dec 82850014912691 20, dec 1202838962100801 20, dec 4446440998573947 20, dec (-6345799532264893) 20, dec (-153636349657759957) 20,
   dec (-784582749467635199) 20, dec (-1091113270659651752) 20, dec 15855078058220179592 20, dec 33112075987570150227 20, dec (-121381163034) 20,
   dec (-185252445637) 20, dec 2782181715752 20, dec 9983716245339 20, dec (-51382328105461) 20, dec (-413045112612025) 20, dec 69219807212556 20,
   dec 11346881914173059 20, dec 4485714262231131 19, dec (-75862241142011713) 20, dec (-1330170710405210993) 20, dec (-4337207915110066583) 20,
   dec 10708263075506099964 20, dec 46937172516119821029 20, dec 123954313286 20, dec (-13150647347) 19, dec (-3208158247443) 20,
   dec 6936208476862 20, dec 96326321605564 20, dec (-186813677726279) 20, dec (-3296596487362508) 20, dec (-1027532398838717) 20,
   dec 88296805857821394 20, dec 288502916411875494 20, dec (-981551522729451135) 20, dec (-8175499367255420548) 20, dec (-197090243242566078) 19,
   dec 51958016003260732459 20, dec (-50293922567) 20, dec 25905819115 19, dec 380069015768 20, dec (-1257928760583) 19, dec 29666593806065 20,
   dec 532199410651341 20, dec (-1466013674557952) 20, dec (-21196179800800308) 20, dec 1488907515797525 19, dec 598670133725335804 20,
   dec 917434640154761191 20, dec (-8592436550224288681) 20, dec (-1970089491453584694) 19, dec 41202451505149651586 20, dec 2689416111 20,
   dec (-60225798842) 20, dec 716632287642 20, dec (-3038834206093) 20, dec (-49829955736697) 20, dec 36467866107985 19, dec 2599276311771812 20,
   dec (-16374249229498868) 20, dec (-112385259950125883) 20, dec 342431039748960465 20, dec 3016663018029814938 20, dec (-2432512430353342927) 20,
   dec (-31797371916576712163) 20, dec 14418001571733803493 20, dec 19463221 19, dec (-13451327719) 20, dec 336581427068 20, dec 2163920016772 20,
   dec (-50868502638387) 20, dec (-126562372408989) 20, dec 3554054033687039 20, dec 7490048474688881 20, dec (-14238004200886133) 19,
   dec (-355314274445060456) 20, dec 3042001885994619102 20, dec 7365497405664882878 20, dec (-26882214651298246524) 20,
   dec (-16578636480856581212) 20]

/-- `c` of `zBesselY0`, zm_sf_bessel.c:409-473. -/
def tY0c : List ℚ :=
  [dec 14133441141 20, dec (-116239182574) 20, dec 560813675548 20, dec 4361111919906 20, dec (-19980743680592) 20, dec (-623828267379045) 20,
   dec 2659779111113435 20, dec 34429768949740887 20, dec (-128058451746064875) 20, dec (-1165906901727504569) 20, dec 3800023545011044967 20,
   dec 13079665132249175616 20, dec (-30099732306965462304) 20, dec (-19470500862950453349) 20, dec 2985070388 20, dec (-43935370028) 20,
   dec (-270094988368) 20, dec 527013936718 19, dec 35596645009533 20, dec (-55939305510166) 19, dec (-2415386269153308) 20,
   dec 34989509210648774 20, dec 98204687587121096 20, dec (-1241793885175385487) 20, dec (-139851984097438996) 19, dec 16758045653582919005 20,
   dec 2375823895638961834 20, dec (-33948059288191103829) 20, dec 3440543098 20, dec (-1492311224) 20, dec (-550307983816) 20, dec 288861169685 20,
   dec 65975576340131 20, dec (-64253433004282) 20, dec (-5095354686815779) 20, dec 635545499385876 19, dec 231750171436134067 20,
   dec (-344140664586595266) 20, dec (-4796153689875432703) 20, dec 6553727330877767204 20, dec 27409127395927545297 20,
   dec (-17324243491898233567) 20, dec 1869953108 20, dec 35678205287 20, dec (-323369443017) 20, dec (-4932837601739) 20, dec 40636932259569 20,
   dec 455294558480472 20, dec (-3376596464782138) 20, dec (-25758322585307069) 20, dec 167416927479443727 20, dec 735300543429220468 20,
   dec (-3904554680817849396) 20, dec (-7593187710651205994) 20, dec 25912851048611625179 20, dec 11731328614820863082 20, dec (-1168499781) 20,
   dec 4049157062 19, dec 176042185153 20, dec (-5796810963324) 20, dec (-17664264701199) 20, dec 565232278687159 20, dec 1060939366068237 20,
   dec (-34382320897779425) 20, dec (-28786871040915476) 20, dec 110369660250104046 19, dec 105742483935856071 20, dec (-13664188676516064192) 20,
   dec 2616867939853747003 20, dec 27020510536578747599 20, dec (-309714065) 19, dec 10275535029 20, dec 507546062007 20, dec (-1697584561546) 20,
   dec (-58222618994516) 20, dec 192483899143098 20, dec 43388818054202 18, dec (-13714074807064326) 20, dec (-184722933402281351) 20,
   dec 51736071998208299 19, dec 3611657815299529568 20, dec (-7491163418624572802) 20, dec (-20317989938720766824) 20, dec 17121062620272384486 20,
   dec (-2289344046) 20, dec (-27762757821) 20, dec 39133021423 19, dec 3673304032817 20, dec (-47258696909223) 20, dec (-323109113206792) 20,
   dec 3749284946160478 20, dec 17039067180362504 20, dec (-172637004639815403) 20, dec (-454152531086626043) 20, dec 3717220530377418124 20,
   dec 4489395902785574534 20, dec (-23370422835726857839) 20, dec (-6753037249787639679) 20, dec 473299038 20, dec (-40489249115) 20,
   dec (-56747261733) 20, dec 5656135976496 20, dec 3564150059329 20, dec (-534821220288168) 20, dec 7581385461348 20, dec 31190256463318867 20,
   dec (-14634564376714538) 20, dec (-95821355155047985) 19, dec 624681472076521329 20, dec 11513529702572439703 20, dec (-5794254714300082167) 20,
   dec (-22523211169118786537) 20, dec 2732444065 20, dec (-17726475495) 20, dec (-437562701999) 20, dec 268153688556 19, dec 48799100503315 20,
   dec (-276490187540644) 20, dec (-3513357925824063) 20, dec 17693155138571443 20, dec 144533233498513085 20, dec (-599106092630544975) 20,
   dec (-2759437856689911694) 20, dec 7945362316083459396 20, dec 15383825653750118008 20, dec (-17121430684466928734) 20]

/-- `d` of `zBesselY0`, zm_sf_bessel.c:474-503. -/
def tY0d : List ℚ :=
  [dec 1059601355592185731 32, dec (-271150591218550377) 30, dec 86514809056201638 28, dec (-46264028554286627) 26, dec 50815403835647104 24,
   dec (-176722552048141208) 22, dec 16286750396763997378 20, dec 2949651820598278873 31, dec (-8818215611676125741) 30, dec 3571119876162253451 28,
   dec (-263192412099371706) 25, dec 4709502795656698909 24, dec (-5208333333333283282) 21, dec 718344107717531977 32, dec (-251623725588410308) 30,
   dec 86017784918920604 28, dec (-46256876614290359) 26, dec 50815343220437937 24, dec (-17672255176494197) 21, dec 16286750396763433767 20,
   dec 22327570859680094777 32, dec (-8464594853517051292) 30, dec 3563766464349055183 28, dec (-2631843986737892965) 26, dec 470950234228865941 23,
   dec (-52083333332278466225) 22, dec 515413392842889366 32, dec (-227740238380640162) 30, dec 84827767197609014 28, dec (-46224753682737618) 26,
   dec 50814848128929134 24, dec (-17672254763876748) 21, dec 16286750396748926663 20, dec 17316195320192170887 32, dec (-7971122772293919646) 30,
   dec 3544039469911895749 28, dec (-2631443902081701081) 26, dec 4709498228695400603 24, dec (-5208333331514365361) 21, dec 384653681453798517 32,
   dec (-204464520778789011) 30, dec 83089298605177838 28, dec (-46155016158412096) 26, dec 5081326369646665 23, dec (-176722528311426167) 22,
   dec 1628675039665006593 19, dec 13797879972460878797 32, dec (-7448089381011684812) 30, dec 351273379710695978 27, dec (-2630500895563592722) 26,
   dec 4709483934775839193 24, dec (-52083333227940760113) 22]

/-- `a` of `zBesselY1`, zm_sf_bessel.c:529-538. -/
def tY1a : List ℚ :=
  [dec (-946499) 19, dec 2141432796 20, dec (-35977944347) 19, dec 43173541397185 20, dec (-3453883313621946) 20, dec 165786399054057257 20,
   dec (-3978873577297383381) 20, dec 31830988618379067154 20, dec (-5571931463) 20, dec 893098810365 20, dec (-99267351748541) 20,
   dec 7164268731546281 20, dec (-295530533604595764) 20, dec 5434868816050718549 20, dec (-1960570906462388432) 19, dec (-63661977236758134367) 20]

/-- `b` of `zBesselY1`, zm_sf_bessel.c:539-596. -/
def tY1b : List ℚ :=
  [dec 2553685555 20, dec 7384080449 20, dec (-29605446927) 20, dec (-52081739106) 19, dec (-3676554001376) 20, dec (-1532652533627) 19,
   dec (-13967947147386) 20, dec 388730181348638 20, dec 4052240780599446 20, dec 25133005806772436 20, dec 109380629039004777 20,
   dec 298157276348996763 20, dec 47188983238582062 20, dec (-19643830264444486066) 20, dec 1056916126 20, dec 62160122556 20, dec 385741197273 20,
   dec 7491469406 18, dec (-6306874425799) 20, dec (-6869833657799) 19, dec (-329785491054157) 20, dec (-557893716372629) 20,
   dec 4634569030169549 20, dec 49086790937752985 20, dec 256488729380268318 20, dec 822571374211646414 20, dec 1094512145046992425 20,
   dec (-19159562910398869317) 20, dec (-40211480479) 20, dec (-229721816531) 20, dec 62931855684 20, dec 6509879184236 20, dec 31589903600713 20,
   dec (-3093448289001) 20, dec (-845532004628483) 20, dec (-4930719004112743) 20, dec (-9865914153735679) 20, dec 47059803263198826 20,
   dec 472271367216891688 20, dec 1915518502418162917 20, dec 372239136138415874 19, dec (-1693323078896687811) 19, dec 110728466147 20,
   dec 205608441891 20, dec (-2536199750468) 20, dec (-11751665325851) 20, dec 3404534385077 19, dec 436083390507752 20, dec 834725302600388 20,
   dec (-7154971448642437) 20, dec (-51956165332380432) 20, dec (-100811886858456098) 20, dec 436854257164588225 20, dec 3425644258611852849 20,
   dec 907397117201493499 19, dec (-10791597118914788657) 20, dec (-117749768422) 20, dec 168403859797 20, dec 3471030171126 20,
   dec (-6227816248757) 20, dec (-118405395385178) 20, dec 14478514453927 20, dec 3630744090017806 20, dec 10481065165516454 20,
   dec (-52483993430622472) 20, dec (-407014291708523893) 20, dec (-574311514714191566) 20, dec 3534768318503458091 20, dec 16539360869993020163 20,
   dec 1986240425870529979 20, dec 4008050552 19, dec (-336044652853) 20, dec (-92387130705) 20, dec 17840823064933 20, dec (-22643988836534) 20,
   dec (-808896250262948) 20, dec (-169403516892975) 20, dec 26617475073041589 20, dec 72562705080786576 20, dec (-399208199997748377) 20,
   dec (-2399816920965700841) 20, dec (-92557474455754244) 19, dec 2008281402282066699 19, dec 21040564991987672576 20, dec 6692975871 20,
   dec 1672202705 19, dec (-1433097981251) 20, dec 5455077276306 20, dec 104954046999028 20, dec (-339572219821681) 20, dec (-5541577161092338) 20,
   dec 4344113487321887 20, dec 184798594297387512 20, dec 30104150846815045 19, dec (-2789739141907399514) 20, dec (-9421628519129373841) 20,
   dec 9950212445529771576 20, dec 3749697583874640408 19, dec 4528583204 20, dec 66861092459 20, dec (-92464816857) 19, dec (-8002058622489) 20,
   dec 87578676979688 20, dec 628456150216647 20, dec (-4276239654834506) 20, dec (-34630842915911896) 20, dec 89431202169021474 20,
   dec 1086380107342193819 20, dec 145563493724746238 20, dec (-14193383817937981478) 20, dec (-15148562296986494725) 20, dec 35720232689066512346 20]

/-- `c` of `zBesselY1`, zm_sf_bessel.c:597-661. -/
def tY1c : List ℚ :=
  [dec 3201620498 19, dec (-177431944127) 20, dec 1367520951871 20, dec (-6171755212447) 20, dec (-43602779932091) 20, dec 179827173442894 20,
   dec 4990624965075363 20, dec (-18618453816525107) 20, dec (-206578613620093339) 20, dec 640292258731756063 20, dec 4663627606907821596 20,
   dec (-11400070635033154332) 20, dec (-26159330264498333979) 20, dec 30099732306965462346 20, dec (-59774708) 20, dec (-38827648808) 20,
   dec 527269271362 20, dec 2971059814012 20, dec (-52701406514027) 20, dec (-320369808906187) 20, dec 4475144442564492 20, dec 16907703884518866 20,
   dec (-209937055264007564) 20, dec (-491023437935628693) 20, dec 496717554070154514 19, dec 4195559522923170315 20, dec (-33516091307165838036) 20,
   dec (-2375823895638961835) 20, dec 283380103 20, dec (-44715450235) 20, dec 1769519961 19, dec 605337984007 19, dec (-2888550814408) 20,
   dec (-593780185020349) 20, dec 514027455732102 20, dec 35667482807472357 20, dec (-3813272996260773) 19, dec (-1158750857180657934) 20,
   dec 1376562658346365929 20, dec 14388461069626297876 20, dec (-1310745466175553429) 19, dec (-27409127395927545296) 20, dec 2683697058 20,
   dec (-24302161327) 20, dec (-430151236236) 20, dec 3557058903199 20, dec 49328952592926 20, dec (-365732389065382) 20, dec (-3642356546467712) 20,
   dec 23636175253326716 20, dec 154549935517002108 20, dec (-837084637397210913) 20, dec (-2941202173717025197) 20, dec 11713664042453548043 20,
   dec 15186375421302413107 20, dec (-25912851048611625179) 20, dec 2914434604 20, dec 15185121893 20, dec (-488084673389) 20,
   dec (-1936460341189) 20, dec 57968735781303 20, dec 158978381365925 20, dec (-4521858314881102) 20, dec (-7426575562367423) 20,
   dec 206293925392279862 20, dec 143934355204571641 20, dec (-4414786410004317489) 20, dec (-317227451807568106) 20, dec 273283773530321296 18,
   dec (-2616867939853747003) 20, dec 644550655 20, dec 40249587279 20, dec (-123789833341) 20, dec (-558299757877) 19, dec 16975984093144 20,
   dec 524003568623094 20, dec (-1539871212028104) 20, dec (-30372172637669852) 20, dec 82284448843625174 20, dec 923614667011392611 20,
   dec (-2069442879928366384) 20, dec (-10834973445898588438) 20, dec 14982326837249145873 20, dec 20317989938720766823 20, dec (-2115691215) 20,
   dec 29752035314 20, dec 334739862269 20, dec (-4304625868398) 20, dec (-36733494871207) 20, dec 425328270524107 20, dec 2584872967637478 20,
   dec (-26244994622929809) 20, dec (-102234403086242668) 20, dec 863185023199066935 20, dec 1816610124346617164 20, dec (-11151661591132254182) 20,
   dec (-897879180557114995) 19, dec 23370422835726857838 20, dec (-2957977086) 20, dec (-6150420279) 20, dec 488089472193 20, dec 624218182859 20,
   dec (-56561995267846) 20, dec (-32077350100271) 20, dec 427856984896483 19, dec (-53069698280036) 20, dec (-18714153878560023) 19,
   dec 73172821883575326 20, dec 3832854206202077374 20, dec (-1874044416229564036) 20, dec (-2302705940514488064) 19, dec 5794254714300082167 20,
   dec (-1203179184) 20, dec (-35509887475) 20, dec 213620090322 20, dec 4813181550803 20, dec (-26815627351126) 20, dec (-439191902440609) 20,
   dec 2211921535574542 20, dec 245935054805247 18, dec (-106158930833741898) 20, dec (-722666167492552731) 20, dec 2396424370522244155 20,
   dec 8278313570069734843 20, dec (-15890724632166919294) 20, dec (-15383825653750118007) 20]

/-- `d` of `zBesselY1`, zm_sf_bessel.c:662-691. -/
def tY1d : List ℚ :=
  [dec (-1272346002224188092) 32, dec 3370464692346669075 31, dec (-1144940314335484869) 29, dec 6863141561083429745 28,
   dec (-9491933932960924159) 26, dec 5301676561445687562 23, dec 162867503967639974 18, dec (-3652982212914147794) 31, dec 1151126750560028914 29,
   dec (-5165585095674343486) 28, dec 4657991250060549892 26, dec (-1186794704692706504) 23, dec 1562499999999994026 20,
   dec (-8713069680903981555) 33, dec 3140780373478474935 31, dec (-1139089186076256597) 29, dec 6862299023338785566 28,
   dec (-9491926788274594674) 26, dec 5301676558106268323 23, dec 162867503967646622 18, dec (-2792555727162752006) 31, dec 1108650207651756807 29,
   dec (-5156745588549830981) 28, dec 4657894859077370979 26, dec (-1186794650130550256) 23, dec 1562499999987299901 20,
   dec (-6304859171204770696) 33, dec 2857249044208791652 31, dec (-1124956921556753188) 29, dec 6858482894906716661 28,
   dec (-949186795351689846) 25, dec 5301676509057781574 23, dec 1628675039678191167 19, dec (-2185193490132496053) 31, dec 1048820673697426074 29,
   dec (-5132819367467680132) 28, dec 465740943737299422 25, dec (-1186794150862988921) 23, dec 1562499999779270706 20, dec (-474041720979200985) 32,
   dec 2578715253644144182 31, dec (-1104148898414138857) 29, dec 6850134201626289183 28, dec (-949167823417491964) 25, dec 5301676277588728159 23,
   dec 1628675039690033136 19, dec (-175512205749384229) 30, dec 9848723331445182397 30, dec (-5094535425482245697) 28, dec 4656255982268609304 26,
   dec (-1186792402114394891) 23, dec 1562499998712198636 20]

/-- `a` of `zBesselI0`, zm_sf_bessel.c:740-776. -/
def tI0a : List ℚ :=
  [dec 85246820682016865877 30, dec 25966600546497407288 28, dec 79689994568640180274 27, dec 19906710409667748239 25, dec 40312469446528002532 24,
   dec 64499871606224265421 23, dec 79012345761930579108 22, dec 71111111109207045212 21, dec 444444444444724909 18, dec 17777777777777532045 19,
   dec 40000000000000011182 19, dec 399999999999999998 17, dec 10000000000000000001 19, dec 11520919130377195927 29, dec 22287613013610985225 28,
   dec 81903951930694585113 27, dec 19821560631611544984 25, dec 40335461940910133184 24, dec 64495330974432203401 23, dec 79013012611467520626 22,
   dec 71111038160875566622 21, dec 44444450319062699316 20, dec 17777777439146450067 19, dec 40000000132337935071 19, dec 39999999968569015366 19,
   dec 10000000003426703174 19, dec 15476870780515238488 29, dec 12685004214732975355 28, dec 92776861851114223267 27, dec 19063070109379044378 25,
   dec 40698004389917945832 24, dec 64370447244298070713 23, dec 79044749458444976958 22, dec 71105052411749363882 21, dec 44445280640924755082 20,
   dec 17777694934432109713 19, dec 40000055808824003386 19, dec 39999977081165740932 19, dec 10000004333949319118 19, dec 20675200625006793075 29,
   dec (-61689554705125681442) 29, dec 12436765915401571654 26, dec 15830429403520613423 25, dec 42947227560776583326 24,
   dec 63249861665073441312 23, dec 79454472840953930811 22, dec 70994327785661860575 21, dec 44467219586283000332 20, dec 17774588182255374745 19,
   dec 40003038986252717972 19, dec 39998233869142057195 19, dec 10000472932961288324 19, dec 27475684794982708655 29,
   dec (-38991472076521332023) 28, dec 19730170483976049388 26, dec 59651531561967674521 26, dec 51992971474748995357 24,
   dec 57327338675433770752 23, dec 82293143836530412024 22, dec 69990934858728039037 21, dec 44726764292723985087 20, dec 17726685170014087784 19,
   dec 40062907863712704432 19, dec 39952750700487845355 19, dec 10016354346654179322 19]

/-- `b` of `zBesselI0`, zm_sf_bessel.c:777-813. -/
def tI0b : List ℚ :=
  [dec 67852367144945531383 27, dec 46266061382821826854 26, dec 69703135812354071774 25, dec 76637663462953234134 24, dec 79113515222612691636 23,
   dec 73401204731103808981 22, dec 60677114958668837046 21, dec 43994941411651569622 20, dec 27420017097661750609 19, dec 14289661921740860534 18,
   dec 59820609640320710779 18, dec 18878998681199150629 17, dec 3998731367825601118 16, dec 42756411572180478514 17, dec 18042097874891098754 26,
   dec 12277164312044637357 25, dec 18484393221474274861 24, dec 20293995900091309208 23, dec 20918539850246207459 22, dec 19375315654033949297 21,
   dec 15985869016767185908 20, dec 11565260527420641724 19, dec 71896341224206072113 19, dec 37354773811947484532 18, dec 15580993164266268457 17,
   dec 4895211371158540918 16, dec 10309147225169564806 16, dec 10935883545113746958 16, dec 48017305613187493564 26, dec 3261317843912380074 24,
   dec 49073137508166159639 24, dec 53806506676487583755 23, dec 55387918291051866561 22, dec 51223717488786549025 21, dec 42190298621367914765 20,
   dec 30463625987357355872 19, dec 18895299447327733204 18, dec 97915189029455461554 18, dec 40713940115493494659 17, dec 12743088990480582632 16,
   dec 26709883037012547506 16, dec 28157166284662544712 16, dec 12789926338424623394 25, dec 86718263067604918916 25, dec 13041508821299929489 23,
   dec 1428224737372747892 21, dec 14684070635768789378 21, dec 13561403190404185755 20, dec 11152592585977393953 19, dec 80387088559465389038 19,
   dec 49761318895895479206 18, dec 2572684232313529138 16, dec 10668543146269566231 16, dec 33283874581009636362 16, dec 69488586598121634874 16,
   dec 72884893398212481055 16, dec 3409350368197032893 24, dec 23079025203103376076 24, dec 34691373283901830239 23, dec 3794994977222908545 21,
   dec 38974209677945602145 21, dec 3594948380414878371 19, dec 29522878893539528226 19, dec 21246564609514287056 18, dec 13128727387146173141 17,
   dec 67738107093296675421 17, dec 28023724744545046518 16, dec 87185731420798254081 16, dec 18141348781638832286 15, dec 18948925349296308859 15]

/-- `c` of `zBesselI0`, zm_sf_bessel.c:814-840. -/
def tI0c : List ℚ :=
  [dec 25568678676452702768 34, dec 30393953792305924324 33, dec 63343751991094840009 32, dec 15041298011833009649 30, dec 44569436918556541414 29,
   dec 1746393051427167951 26, dec 10059224011079852317 25, dec 10729838945088577089 23, dec 5150322693642527738 20, dec 52527963991711562216 34,
   dec 7202118481421005641 33, dec 72561421229904797156 32, dec 1482312146673104251 29, dec 44602670450376245434 29, dec 17463600061788679671 27,
   dec 1005922609132234756 24, dec 10729838937545111487 23, dec 51503226936437300716 21, dec 13365917359358069908 33, dec (-12932643065888544835) 32,
   dec 17450199447905602915 31, dec 10419051209056979788 30, dec 458047881980598326 27, dec 17442405450073548966 27, dec 10059461453281292278 25,
   dec 10729837434500161228 23, dec 51503226940658446941 21, dec 53771611477352308649 33, dec (-11396193006413731702) 31,
   dec 12858641335221653409 30, dec (-59802086004570057703) 30, dec 73666894305929510222 29, dec 16731837150730356448 27,
   dec 10070831435812128922 25, dec 10729733111203704813 23, dec 51503227360726294675 21, dec 37819492084858931093 33,
   dec (-48600496888588034879) 32, dec 16898350504817224909 31, dec 45884624327524255865 30, dec 12521615963377513729 29,
   dec 18959658437754727957 27, dec 10020716710561353622 25, dec 1073037119856927559 22, dec 5150322383300230775 20]

/-- `a` of `zBesselI1`, zm_sf_bessel.c:859-890. -/
def tI1a : List ℚ :=
  [dec 12787464404046789181 29, dec 35705860060088241077 28, dec 9961153761934733504 26, dec 22395070088633043177 25, dec 40312466928887462346 24,
   dec 56437387840203722356 23, dec 59259259312934746096 22, dec 4444444444349900887 20, dec 22222222222232042719 20, dec 66666666666666139867 20,
   dec 10000000000000001106 19, dec 49999999999999999962 20, dec 17281952384448634449 29, dec 3064720455997639013 27, dec 10237662138842827028 26,
   dec 22299494417341498163 25, dec 40335364374929326943 24, dec 56433440269141349899 23, dec 59259754885893798654 22, dec 4444439941088039787 20,
   dec 2222222511283502673 19, dec 66666665422146063244 20, dec 10000000032274936821 19, dec 49999999961866867205 20, dec 23216048939948030996 29,
   dec 17443372702334489579 28, dec 11596478963485415499 26, dec 21446755518623035147 25, dec 40697440347437076195 24, dec 56324394900433192204 23,
   dec 59283484996093060678 22, dec 44440673899150997921 21, dec 2222263801685265786 19, dec 66666358151576732094 20, dec 10000013834029985337 19,
   dec 49999971643129650249 20, dec 31013758938255172562 29, dec (-84813676145611694984) 29, dec 15544980187411802596 26,
   dec 17811109378708045726 25, dec 42945322199060856985 24, dec 55344850176852353639 23, dec 59590327716950614802 22, dec 44371611097707060659 21,
   dec 22233578241986401111 20, dec 6665474730046331531 19, dec 10000756505206705927 19, dec 49997803664415994554 20, dec 41214758313965020365 29,
   dec (-5361331773534742944) 27, dec 24661360807517345161 26, dec 67144593918926723203 26, dec 51988027944945587571 24, dec 50165568586065803067 23,
   dec 61717530047005289953 22, dec 43745229577317251404 21, dec 22363147971477747996 20, dec 6647546913111766024 19, dec 10015686689447547657 19,
   dec 49941120439785391891 20]

/-- `b` of `zBesselI1`, zm_sf_bessel.c:891-927. -/
def tI1b : List ℚ :=
  [dec 66324787943143095845 27, dec 45125928898466638619 26, dec 67937793134877246623 25, dec 74580507871505926302 24, dec 76866382927334005919 23,
   dec 71185174803491859307 22, dec 58721838073486424416 21, dec 42473949281714196041 20, dec 26396965606282079123 19, dec 13710008536637016903 18,
   dec 57158647688180932003 18, dec 17946182892089389037 17, dec 37757997362398478619 17, dec 39987313678256009819 17, dec 17652713206027939711 26,
   dec 11988179244834708057 25, dec 18037851545747139231 24, dec 19775785516370314656 23, dec 20354870702829387283 22, dec 188221641910322536 19,
   dec 15500485219010424263 20, dec 1119010001056057321 18, dec 69391565185406617552 19, dec 35948170579648649345 18, dec 14941909525103032616 17,
   dec 46742979492780642582 17, dec 97904227423171290408 17, dec 10309147225169564443 16, dec 47022299276154507603 26, dec 31878571710170115972 25,
   dec 47940153875711448496 24, dec 52496623508411440227 23, dec 53968661134780824779 22, dec 49837081920693776234 21, dec 40979593830387765545 20,
   dec 29533186922862948404 19, dec 18278176130722516369 18, dec 9447649715018912107 17, dec 39166075612645333624 17, dec 12214182034643210345 16,
   dec 25486177980961291004 16, dec 26709883037012546541 16, dec 12535083724002034147 25, dec 8484587142065570825 24, dec 12753227372734042108 23,
   dec 13950105363562648921 22, dec 14325473993765291906 21, dec 13212452778932829125 20, dec 10849287786885151432 19, dec 78068089156260172673 19,
   dec 48232254570679165833 18, dec 24880659424902394371 17, dec 10290736929484210803 16, dec 32005629438795801652 16, dec 66567749162019607914 16,
   dec 69488586598121632302 16, dec 33439394490599745013 25, dec 22600596902211837757 24, dec 33955927589987356838 23, dec 37105306061050972474 22,
   dec 38065263634919156421 21, dec 35068223415665236079 20, dec 28760027832105027316 19, dec 20665999500843274339 18, dec 12747939148516390205 17,
   dec 65643636874254000885 17, dec 2709524283793247992 15, dec 84071174233600734871 16, dec 17437146284159740233 15, dec 181413487816388316 13]

/-- `c` of `zBesselI1`, zm_sf_bessel.c:928-954. -/
def tI1c : List ℚ :=
  [dec (-28849790431465382128) 34, dec (-35125350943844774657) 33, dec (-7485086701370741975) 31, dec (-18383904048277485153) 30,
   dec (-57303556446977223342) 29, dec (-24449502737311496525) 27, dec (-16765373351766929724) 25, dec (-32189516835265773471) 23,
   dec 51503226936425277377 21, dec (-58674306822281631119) 34, dec (-94884898451194085565) 34, dec (-8503386513660036434) 31,
   dec (-18142997866945285736) 30, dec (-57340238386338193949) 29, dec (-24449138101742183665) 27, dec (-16765375646678855842) 25,
   dec (-32189516826945356325) 23, dec 51503226936412017608 21, dec (-14723362506764340882) 33, dec 13945147385179042899 32,
   dec (-19618041857586930923) 31, dec (-13343606394065121821) 30, dec (-58649674606973244159) 29, dec (-24426060539669553778) 27,
   dec (-16765631828366988006) 25, dec (-32189515191449587253) 23, dec 51503226931820146445 21, dec (-58203519372580372987) 33,
   dec 12266326995309845825 31, dec (-13921625844526453237) 30, dec 62228025878281625469 30, dec (-88636681342142794023) 29,
   dec (-23661241616744818608) 27, dec (-16777870960740520557) 25, dec (-32189402882677074318) 23, dec 51503226479551959376 21,
   dec (-45801527369223291722) 33, dec 67998819697143727209 32, dec (-41624857909290468421) 31, dec (-32849009406112440998) 30,
   dec (-3247827569043111827) 28, dec (-25739209934053714983) 27, dec (-16730566573215739195) 25, dec (-32190010909008684076) 23,
   dec 5150322986693207715 20]

/-- `a` of `zBesselK0`, zm_sf_bessel.c:1000-1009. -/
def tK0a : List ℚ :=
  [dec 24307270476772195953 31, dec 4709166636378530437 28, dec 67816861334344265568 27, dec 67816840204737508252 25, dec 43402777777915334676 23,
   dec 15624999999999872796 21, dec 25000000000000000448 20, dec 99999999999999999997 20, dec 65878327432224993071 31, dec 12083308769932888218 28,
   dec 16271062073716412046 26, dec 14914719278555277887 24, dec 84603509071212245667 23, dec 2524892993216233391 20, dec 27898287891460312491 20,
   dec 11593151565841244874 20]

/-- `b` of `zBesselK0`, zm_sf_bessel.c:1010-1067. -/
def tK0b : List ℚ :=
  [dec (-46430702971053162197) 32, dec 1037793605956372823 29, dec (-10298475936392057807) 29, dec 53632747492333959219 29,
   dec (-21674628861036068105) 29, dec (-23316071545820437669) 27, dec 22557819578691704059 26, dec (-92325694638587080009) 26,
   dec (-33569097781613661759) 25, dec 87355061305812582974 24, dec (-68021202111645760475) 23, dec 27434654781323362319 23,
   dec 10031787169953909561 20, dec 42102443824070833334 20, dec 41447451117883103686 31, dec (-34026589638576604315) 30,
   dec 93398790624638977468 31, dec 1518418175079985263 27, dec (-11364911665083029464) 27, dec 20619457602095915719 27, dec 3043101803757224363 25,
   dec (-2974973626447455551) 24, dec 80143661611467038568 25, dec 80937525149549218398 24, dec (-10356346549612699886) 22,
   dec 28534806627578638795 22, dec 97369634474060441807 21, dec 32175066577856452683 20, dec 1117088257074072752 31, dec (-82865909408297066068) 30,
   dec 94656678749191182763 29, dec (-3583201984184788338) 27, dec (-95017955656904252761) 28, dec 15200595674883329093 26,
   dec (-3866326257135605998) 25, dec (-33350340828235103499) 25, dec 29359886663960844231 24, dec (-11266401822556801563) 24,
   dec (-12113572742435576205) 22, dec 63158973673701376253 22, dec 88291790250128171341 21, dec 22833982383240512262 20,
   dec (-32880638807053948433) 30, dec 43194884830465283512 29, dec (-17455089683104033093) 28, dec (-32437330799994764516) 28,
   dec 47393655539139519778 27, dec (-11929265603456272466) 27, dec (-13177845881013419388) 25, dec 33873375636197969526 25,
   dec 32729835880668256625 24, dec (-18367283883002494561) 23, dec (-82830996454188084408) 23, dec 95512732229514251931 22,
   dec 72233832113719266702 21, dec 14753187103603405298 20, dec 79998492614150860098 30, dec (-7025734670268613949) 28, dec 7889882162708458627 28,
   dec 11294796399671507085 27, dec (-11360539648638059137) 27, dec (-30346309115270564487) 26, dec 32235585426189451721 26,
   dec 83575612102298214948 25, dec (-85169628089198208211) 25, dec (-25740175232173357342) 23, dec 1246273401468915277 22,
   dec 1068323286919220345 20, dec 51515690033637395779 21, dec 85465862953544883657 21, dec (-86111506537356531608) 30, dec 51862926131024597823 29,
   dec 75884324949371110022 29, dec (-64011975813006767417) 28, dec (-41966181325111763156) 27, dec 91306285446881485314 27,
   dec 13573638315827954034 25, dec 48683213252735694701 26, dec (-38805424608710197066) 24, dec (-1183898646868898061) 22,
   dec 92796213947750964945 23, dec 89611057737319027776 22, dec 31464453915862785606 21, dec 4426764808753663078 20, dec 44400123834164610288 30,
   dec (-11411233140911074336) 29, dec (-8820067070246705983) 28, dec (-19686735373323381456) 28, dec 19921120728941773855 27,
   dec 1454397441858483474 25, dec 18238418041265854754 27, dec (-45363700392899066037) 25, dec (-21688068222527688542) 24,
   dec 454960621666870347 22, dec 10435238076080528284 22, dec 58374528996419979931 22, dec 1661121071042545585 20, dec 20756008367065750538 21,
   dec (-65166519951106397214) 31, dec (-5857218285878853958) 29, dec 15550375065815375404 29, dec 19526509484993563229 28,
   dec 92637123346818426594 28, dec (-14136471501812055943) 27, dec (-43024895710889717172) 26, dec (-23235612243330592076) 25,
   dec 40380616133862188804 26, dec 92783767992909743602 24, dec 72964887597817095035 23, dec 31316245282223273413 22, dec 78028233022066428316 22,
   dec 90014807263791058095 22]

/-- `c` of `zBesselK0`, zm_sf_bessel.c:1068-1141. -/
def tK0c : List ℚ :=
  [dec 45161032649342790231 30, dec (-42774336988557091369) 30, dec 60998467173896677777 29, dec 19845167242599996944 28,
   dec 13097678767280215271 27, dec 74505822268382641286 27, dec 42893920879106814989 26, dec 23900851955655303104 25, dec 12533473009382380357 24,
   dec 59693359063879871983 24, dec 2477507066108730458 22, dec 85106703131389516508 23, dec 22500105115665788755 22, dec 404461344545216346 20,
   dec 36910983340425942762 22, dec 35732826433251464989 31, dec (-32906649482312266258) 31, dec 70873811190464760555 30, dec 2955132058048417712 28,
   dec 22776940472505079894 28, dec 15175463612815010036 27, dec 99462487812170164133 27, dec 614487577978539011 24, dec 3486953188290736075 24,
   dec 17615836644757657443 24, dec 76373536037879531886 24, dec 27098571871205999668 23, dec 73399047381788927036 23, dec 13439197177355085297 22,
   dec 12439943280131230863 22, dec 36343547836242523646 32, dec 97997961751276137602 33, dec 10184692699811569047 30, dec 61495184828957652064 30,
   dec 50238328349302602543 29, dec 37498626376004337661 28, dec 26689445483857236307 27, dec 17591899737346368084 26, dec 10486448307010701679 25,
   dec 54986458466257148573 25, dec 24521456351751345323 24, dec 88900942259143832228 24, dec 2448394771406830019 22, dec 45418248688489693045 23,
   dec 42479574186923180694 23, dec 52460389348163395857 33, dec 7480206302650350354 32, dec 20012201610651998417 31, dec 14887306044735163359 30,
   dec 1294670541423294035 28, dec 10391628915892803144 28, dec 78091180499677328456 28, dec 53694223626907660084 27, dec 33063914804658509029 26,
   dec 17776972424421486506 25, dec 80833148098458320202 25, dec 2975555630444881778 23, dec 82945928349220642178 24, dec 15536921180500112883 23,
   dec 14647070522281538711 23, dec 97531436733955514559 34, dec 24084291220447154982 33, dec 47654956400897494468 32, dec 40200949504810597783 31,
   dec 36726577109162191533 30, dec 30939005665422637601 29, dec 24122848979784500179 28, dec 17071884462645525505 27, dec 10752238955654933405 26,
   dec 58844190041189462347 26, dec 27136083303224014597 25, dec 10102477728604441135 24, dec 28420490721532571809 24, dec 53637016379451944413 24,
   dec 50881312956459247572 24, dec 2173204986818937726 33, dec 72720052142815590531 34, dec 128030837955368201 30, dec 11696825543787717167 31,
   dec 11083298191597132094 30, dec 96536661252658773139 30, dec 77242553835198536397 29, dec 5579836626711057562 27, dec 3572134529654341437 26,
   dec 19806931547193682466 26, dec 92312964655319555313 26, dec 34666258590861079959 25, dec 98224698307751177077 25, dec 18648773453825584428 24,
   dec 17780062316167651812 24, dec 55012463763851934112 35, dec 22254763392767319419 34, dec 37187669817701214965 33, dec 35819585377733489628 32,
   dec 34866061263191556694 31, dec 3110163345062965291 29, dec 25358235662235617663 29, dec 18597629779492599046 28, dec 12052654739462999992 27,
   dec 67501417351172136833 27, dec 31720052198654584574 26, dec 11993651363602981832 25, dec 34179130317623363474 25, dec 65208606745808860158 25,
   dec 62430205476536771454 25, dec 15225407517829491689 35, dec 69834820025664405161 35, dec 11380182837138781431 33, dec 11369488761077196511 32,
   dec 11291168681618466716 31, dec 10250757630526871007 30, dec 84765287317253141514 30, dec 62886627779402596211 29, dec 41142865598366029316 28,
   dec 23223773435632014408 27, dec 10985095234166396934 26, dec 41766260951820336228 26, dec 11958609263543792991 25, dec 22907574647671878055 25,
   dec 22008253973114914005 25, dec 44863058691420695911 36, dec 22437356594371819978 35, dec 36107964803015652759 34, dec 37031193629853392081 33,
   dec 37341552790439784371 32, dec 34355950129497564468 31, dec 28719942600171304499 30, dec 21499646844509516453 29, dec 14171810843455227171 28,
   dec 80501118772875784153 28, dec 38281889106330295876 27, dec 14621673458431979989 26, dec 42029868696411098586 26, dec 80785884122023473025 26,
   dec 77845438614204963209 26]

/-- `d` of `zBesselK0`, zm_sf_bessel.c:1142-1163. -/
def tK0d : List ℚ :=
  [dec (-79737703860537066166) 33, dec 19543834380466766627 31, dec (-47230794431646733538) 30, dec 14001773785771252004 28,
   dec (-54864553020583098585) 27, dec 31601984250143742772 25, dec (-33708783204090252161) 23, dec 16180215937964160437 20,
   dec (-52593898374798632343) 33, dec 17725913926973236457 31, dec (-46672234858122387294) 30, dec 13991653503828889207 28,
   dec (-54863400156413929639) 27, dec 31601976099900075541 25, dec (-33708783171335864627) 23, dec 1618021593795843376 19,
   dec (-36135496189875398132) 33, dec 15466239429618130284 31, dec (-45320259146602122624) 30, dec 13945974109459385552 28,
   dec (-54853994841172088787) 27, dec 31601858228022739196 25, dec (-3370878233999830232) 22, dec 16180215937704286491 20,
   dec (-25640663123518180635) 33, dec 13288079339404032671 31, dec (-43368537955908371563) 30, dec 13848103653102203186 28,
   dec (-54824335664256344123) 27, dec 31601315173126153586 25, dec (-3370877677903569564) 22, dec 16180215935248373474 20,
   dec (-18678321325292127767) 33, dec 11354310934105733311 31, dec (-41057197297998608931) 30, dec 1369399096129635097 27,
   dec (-54762428935047089835) 27, dec 31599817092775027963 25, dec (-33708756559715893599) 23, dec 1618021592350814424 19]

/-- `a` of `zBesselK1`, zm_sf_bessel.c:1187-1196. -/
def tK1a : List ℚ :=
  [dec 15151605362537935201 32, dec 3363790951353651035 29, dec 56514041131016827202 28, dec 67816840255069534052 26, dec 54253472222259226487 24,
   dec 26041666666666637057 22, dec 6250000000000000009 20, dec 5 1, dec (-89790303384748696588) 30, dec (-14029047449249185771) 27,
   dec (-15592893752540998113) 25, dec (-11253607018469017569) 23, dec (-46421827665011579173) 22, dec (-85370719728648409609) 21,
   dec (-3079657578292062966) 19, dec 10000000000000000004 19]

/-- `b` of `zBesselK1`, zm_sf_bessel.c:1197-1262. -/
def tK1b : List ℚ :=
  [dec (-94055461896630579928) 31, dec 31307934665844664773 30, dec 42005295001519243251 29, dec (-41636196779679820012) 28,
   dec 14483026181700966164 27, dec 11661000205428816914 27, dec (-35023996724943046209) 26, dec 14404279316339005012 25, dec 5358156415715824208 25,
   dec (-35249754038612334639) 24, dec 17150324075631641453 23, dec (-41276362611239191024) 24, dec (-46943110979636602591) 22,
   dec 35085369853392357659 21, dec 20063574339907819159 20, dec 33998989888944034586 30, dec 71558979072937373055 30,
   dec (-29226856932927698732) 28, dec 14591620256525610213 27, dec (-66141635609854161666) 28, dec (-19991101838984472332) 26,
   dec 59185836628873530572 26, dec 19562880347358085687 25, dec (-15814366450418102764) 24, dec 76791682910944612028 25,
   dec 28354678948323983936 23, dec (-10217932669418690641) 22, dec (-32205661865210048433) 22, dec 43497494842354644077 21,
   dec 16110284302315089935 20, dec (-20933987679665541827) 29, dec 79503322090520447316 29, dec 38000150948242575774 28,
   dec (-23076136195585571309) 27, dec (-23902880302550799653) 27, dec 31914500937804377478 26, dec 32639909831082417694 26,
   dec (-53166994792995439449) 25, dec (-31109524694269240094) 25, dec 92575906966353273247 24, dec 75063709094147644746 26,
   dec (-17416491592625765379) 22, dec 12138560335171676007 22, dec 45879687144659643175 21, dec 11566544716132846709 20,
   dec 31582384905164908749 29, dec (-19959561818098999516) 28, dec 86959328920030927557 29, dec 11642778282445577109 27,
   dec 43552264337818440471 27, dec (-15057982160481803238) 26, dec (-10101729117980989857) 25, dec 77002002510177612013 26,
   dec 19580574235590194233 24, dec 19358461980242834361 24, dec (-33932339942485532728) 23, dec (-93416673584325090073) 23,
   dec 55800080455912847227 22, dec 38668683062477179235 21, dec 72651643500517000658 21, dec (-11554749629758510059) 29,
   dec 82270678758893273006 29, dec (-50211156951551538591) 29, dec (-14929179050554858361) 28, dec (-27107940791526366702) 27,
   dec (-42204764086705349384) 27, dec 37253098167927628867 26, dec 24374697215363361156 25, dec 1414194200690976837 24,
   dec (-48766389019473918231) 24, dec (-21681387247526720978) 23, dec 29325729929653405236 23, dec 64087534504827239815 22,
   dec 26054628289709454356 21, dec 40156431128194184336 21, dec 25506555170746221691 30, dec (-13521164018407978152) 29,
   dec (-83281235274106699399) 30, dec (-97764849575562351891) 29, dec 34661828409940354542 28, dec 39760633711791357544 27,
   dec 1590290664550452993 25, dec (-14919441249454941275) 26, dec (-53779684992094351263) 25, dec (-27513862296246223142) 24,
   dec (-97880089725297162007) 25, dec 70787668964515789714 23, dec 46968199862345387583 22, dec 14745740181663320127 21,
   dec 20048622219583455723 21, dec (-34824483072529265585) 31, dec 15157161810563380451 31, dec 85303859696700686144 31,
   dec 33455414203743741076 29, dec 20226016353844285376 28, dec 5312815400326633499 27, dec (-30799322316418042137) 27,
   dec (-44455408272954712128) 26, dec (-24293274626893384034) 25, dec (-32129079340119038354) 25, dec 5922540368307538885 23,
   dec 56822962576781683532 23, dec 27152446516406682732 22, dec 74075873691848838485 22, dec 93044450815739269849 22,
   dec (-27683216166276377232) 32, dec 31986676777610155465 31, dec 94142986954031445666 31, dec 67934609179456399334 30, dec 3485152941147002933 29,
   dec (-25785248508896551557) 28, dec (-28310220027112571258) 27, dec (-16384131113072271115) 26, dec (-32521663350596379097) 26,
   dec 4038138875762230716 24, dec 51917606978077281001 24, dec 33420027947470126154 23, dec 13699550623118247094 22, dec 34405619148342271096 22,
   dec 41042919106665762794 22]

/-- `c` of `zBesselK1`, zm_sf_bessel.c:1263-1328. -/
def tK1c : List ℚ :=
  [dec 45281968025889407937 31, dec 10806749918195271176 30, dec 96200972728717669027 30, dec 5721422706362526365 28, dec 36077804282954825099 28,
   dec 22465236858536681852 27, dec 1367696126430873523 25, dec 79561767489531997361 26, dec 43014380065615550573 25, dec 2092171390555028559 23,
   dec 88079183950590176926 24, dec 30549414408830252064 23, dec 81295715613927890473 23, dec 14679809476357079195 22, dec 13439197177355090057 22,
   dec 76019964430402432637 32, dec (-2261619859915827119) 31, dec 17904450823779000744 30, dec 91467054855312232717 30, dec 71378582044879519122 29,
   dec 49925255415445769102 28, dec 33767315471315546644 27, dec 21350774539167751457 26, dec 12314353082655232903 25, dec 62918685053670619181 25,
   dec 27493229298777000013 24, dec 98085825401369821771 24, dec 26670282677770444935 23, dec 48967895428135985381 23, dec 45418248688489697144 23,
   dec 94180115230375147213 33, dec 75943117003734061145 33, dec 30335730243874287654 31, dec 20202796115462268051 30, dec 16839020189186971198 29,
   dec 12907875663127201526 28, dec 9354767612586579892 27, dec 62471974110281880722 27, dec 37585985422997380441 26, dec 19838348288114906484 25,
   dec 88884862203671982034 25, dec 32333259238682810218 24, dec 89266668913380400243 24, dec 16589185669844051903 23, dec 15536921180500113394 23,
   dec 15425475332301107271 33, dec 28674534590132490434 33, dec 65078462279160216936 32, dec 50939757793961391211 31, dec 4497983746074897552 29,
   dec 36662925847520171711 29, dec 27848878755089582413 28, dec 1929812005933947782 26, dec 11950323861976892013 26, dec 64513432758147478287 26,
   dec 29422095033982461936 25, dec 10854433321174584937 24, dec 30307433185818899481 24, dec 5684098144306501785 23, dec 53637016379451945253 24,
   dec 31077953698439839352 34, dec 86899496170729520378 34, dec 16258562067326054104 32, dec 14104842571366761537 31, dec 13019455544084110747 30,
   dec 11070466372863950239 29, dec 86890603844230597917 29, dec 61793722175049967488 28, dec 39058865943755615801 27, dec 21432806981070368523 26,
   dec 99034657762983230155 26, dec 36925185861895664251 25, dec 10399877577259449786 24, dec 19644939661550210015 24, dec 18648773453825584597 24,
   dec 72831555285336286457 35, dec 26077534095895783532 34, dec 44881202059263153495 33, dec 41674329383944385626 32, dec 39760100480223728037 31,
   dec 3483597635535118301 29, dec 279932542127702497 27, dec 20286513276830758107 28, dec 13018343087118439152 27, dec 72315927974997999365 27,
   dec 33750708681924201599 26, dec 12688020879407355571 25, dec 35980954090811587848 25, dec 68358260635246667316 25, dec 65208606745808860557 25,
   dec 19026412343503745875 35, dec 80073765508732553766 35, dec 13245754278055523992 33, dec 12885201653055058502 32, dec 12600129301230402587 31,
   dec 11283306843147549277 30, dec 92261481309646814329 30, dec 67812033168299846818 29, dec 44020645304595102132 28, dec 24685719238301517679 27,
   dec 11611886719473112509 26, dec 43940380936523135466 26, dec 12529878285546791905 25, dec 23917218527087570384 25, dec 2290757464767187816 24,
   dec 53709522135744366512 36, dec 25239221050372845433 35, dec 4093314714589908336 33, dec 41152784247617592367 33, dec 40998840572769381012 32,
   dec 37319354625807158852 31, dec 30921671702920868014 30, dec 22975898538634445343 29, dec 15049754445782364328 28, dec 85030864719789148982 28,
   dec 4025055939111842381 26, dec 15312755642491878591 26, dec 43865020375297892208 26, dec 84059737392822153101 26, dec 80785884122023473319 26]

/-- `d` of `zBesselK1`, zm_sf_bessel.c:1329-1350. -/
def tK1d : List ℚ :=
  [dec 92371554649979581914 33, dec (-23111336195788410887) 31, dec 57728710326649832559 30, dec (-18002298130091372598) 28,
   dec 76810375010517145638 27, dec (-52669973752193823306) 25, dec 10112634961227401357 22, dec 16180215937964160466 20,
   dec 61381146507252683381 33, dec (-21034499679806301862) 31, dec 57090233460448415278 30, dec (-17990724350642330817) 28,
   dec 76809056078388019946 27, dec (-52669964425290062357) 25, dec 1011263495747828339 21, dec 16180215937970716383 20, dec 42458150578401296419 33,
   dec (-18435733128339016981) 31, dec 55534955081564656595 30, dec (-17938162188526358466) 28, dec 76798230945934117807 27,
   dec (-52669828728791921259) 25, dec 10112634861753356559 22, dec 16180215938263409582 20, dec 30314798962267007518 33,
   dec (-15915009905364214455) 31, dec 53275907427402047438 30, dec (-17824862013841369751) 28, dec 7676389035644707581 26,
   dec (-52669199860465945909) 25, dec 10112634217687349189 22, dec 16180215941108227283 20, dec 22211515002229271212 33,
   dec (-13664088221521734796) 31, dec 50585177270502341602 30, dec (-17645432205894533462) 28, dec 76691805594577373698 27,
   dec (-52667455286976269634) 25, dec 1011263186281097458 21, dec 16180215954783127877 20]

end Zm.Bessel
